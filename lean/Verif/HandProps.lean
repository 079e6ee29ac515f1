import Verif.Hand

/-
C28: what passes between the main side and the worker.
-/
namespace Divans.Hand

variable {γ : Type}

/-! ### Specification: what a log says -/

/-- The buffers main handed over. -/
def pushedData (log : List (Obs γ)) : List Range :=
  log.flatMap fun
    | .push b true => [b]
    | _ => []

/-- The buffers the worker got. -/
def takenData (log : List (Obs γ)) : List Range :=
  log.flatMap fun
    | .pullData (.data b) => [b]
    | _ => []

/-- The commands the worker handed over. -/
def sentCmds (log : List (Obs γ)) : List (Cmd γ) :=
  log.flatMap fun
    | .pushCmd c .success => [c]
    | .insert cs pm => cs.map .other ++ pm.toList.map .pm
    | _ => []

/-- How main reads a block of commands: each prediction mode takes the first of the maps, and the other
moves up, /repo/src/codec/decoder.rs:378-381. -/
def attach : List (Static γ) → Pm × Pm → List (Cmd γ)
  | [], _ => []
  | .other c :: t, ps => .other c :: attach t ps
  | .pm :: t, ps => .pm ps.1 :: attach t (ps.2, .empty)

/-- The commands main got. -/
def receivedCmds (log : List (Obs γ)) : List (Cmd γ) :=
  log.flatMap fun
    | .pull cs _ pms _ => attach cs pms
    | _ => []

/-- Blocks of memory, without the empty ones. -/
def blocks (bs : List Range) : List Range := bs.filter fun b => b.cap != 0

/-- The blocks the worker gave back. -/
def sentBufs (log : List (Obs γ)) : List Range :=
  log.flatMap fun
    | .pushConsumed b .success => blocks [b]
    | _ => []

/-- The blocks main got back. -/
def receivedBufs (log : List (Obs γ)) : List Range :=
  log.flatMap fun
    | .pull _ bufs _ _ => blocks [bufs.1, bufs.2]
    | _ => []

/-- The maps main gave back. -/
def pushedCms (log : List (Obs γ)) : List Pm :=
  log.flatMap fun
    | .pushCm p true => [p]
    | _ => []

/-- The maps the worker got. -/
def takenCms (log : List (Obs γ)) : List Pm :=
  log.flatMap fun
    | .pullCm (some p) => [p]
    | _ => []

/-- The errors broadcast, in order. -/
def broadcasts (log : List (Obs γ)) : List Nat :=
  log.flatMap fun
    | .fail e => [e]
    | _ => []

/-- The error a call reported, if it did. -/
def reports : Obs γ → Option Nat
  | .pull _ _ _ (.err e) => some e
  | .pullData (.err e) => some e
  | .pushCmd _ (.failure e) => some e
  | .pushConsumed _ (.failure e) => some e
  | .pushEof (.failure e) => some e
  | _ => none

/-- All prediction modes handed over are real ones, with speeds: those the decoder makes always are. -/
def RealModes (log : List (Obs γ)) : Prop := ∀ p, Cmd.pm p ∈ sentCmds log → p.speeds = true

/-! ### Lemmas -/

theorem run_inv {P : Queue γ → List (Obs γ) → Prop}
    (hstep : ∀ w log o w' x, P w log → step w o = some (w', x) → P w' (log ++ [x]))
    {ops : List (Op γ)} {w w' : Queue γ} {log log' : List (Obs γ)} (h : P w log)
    (hr : run ops w = some (w', log')) : P w' (log ++ log') := by
  induction ops generalizing w log log' with
  | nil =>
    simp only [run, Option.some.injEq, Prod.mk.injEq] at hr
    obtain ⟨rfl, rfl⟩ := hr
    simpa using h
  | cons o os ih =>
    simp only [run] at hr
    cases h1 : step w o with
    | none => rw [h1] at hr; simp at hr
    | some y =>
      obtain ⟨w1, x⟩ := y
      rw [h1] at hr
      simp only [Option.map_eq_some_iff] at hr
      obtain ⟨⟨w2, log2⟩, h2, h3⟩ := hr
      simp only [Prod.mk.injEq] at h3
      obtain ⟨rfl, rfl⟩ := h3
      have := ih (hstep w log o w1 x h h1) h2
      rwa [List.append_assoc, List.singleton_append] at this

theorem run_append {a b : List (Op γ)} {w w2 : Queue γ} {log : List (Obs γ)}
    (hr : run (a ++ b) w = some (w2, log)) :
    ∃ w1 l1 l2, run a w = some (w1, l1) ∧ run b w1 = some (w2, l2) ∧ log = l1 ++ l2 := by
  induction a generalizing w log with
  | nil => exact ⟨w, [], log, rfl, hr, rfl⟩
  | cons o os ih =>
    simp only [List.cons_append, run] at hr ⊢
    cases h1 : step w o with
    | none => rw [h1] at hr; simp at hr
    | some y =>
      obtain ⟨w1, x⟩ := y
      rw [h1] at hr
      simp only [Option.map_eq_some_iff] at hr
      obtain ⟨⟨w3, log3⟩, h2, h3⟩ := hr
      simp only [Prod.mk.injEq] at h3
      obtain ⟨rfl, rfl⟩ := h3
      obtain ⟨w4, l4, l5, h4, h5, rfl⟩ := ih h2
      exact ⟨w4, x :: l4, l5, by simp only [h4]; rfl, h5, rfl⟩

/-! ### Data, from main to the worker -/

/-- The buffers waiting for the worker. -/
inductive WData (w : Queue γ) : List Range → Prop
  | zero : w.dataLen = 0 → WData w []
  | one {a} : w.dataLen = 1 → w.d0 = .data a → WData w [a]
  | two {a b} : w.dataLen = 2 → w.d0 = .data a → w.d1 = .data b → WData w [a, b]

theorem WData.congr {w w' : Queue γ} {l : List Range} (h : WData w l) (h1 : w'.dataLen = w.dataLen)
    (h2 : w'.d0 = w.d0) (h3 : w'.d1 = w.d1) : WData w' l := by
  cases h with
  | zero h => exact .zero (by rw [h1, h])
  | one h k => exact .one (by rw [h1, h]) (by rw [h2, k])
  | two h k m => exact .two (by rw [h1, h]) (by rw [h2, k]) (by rw [h3, m])

/-- The fields one call of another kind leaves alone. -/
theorem insert_fields {w w' : Queue γ} {buf buf' : CBuf γ} {pm : Option Pm} {n : Nat}
    (h : w.insert buf pm = some (w', buf', n)) :
    w'.dataLen = w.dataLen ∧ w'.d0 = w.d0 ∧ w'.d1 = w.d1 ∧ w'.cmLen = w.cmLen ∧ w'.c0 = w.c0 ∧
      w'.c1 = w.c1 ∧ w'.r0 = w.r0 ∧ w'.r1 = w.r1 ∧ w'.status = w.status ∧ w'.err = w.err ∧
      w'.waiters = w.waiters := by
  unfold Queue.insert at h
  simp only at h
  split at h
  · cases pm with
    | none =>
      simp only [Option.some.injEq, Prod.mk.injEq] at h
      obtain ⟨rfl, -⟩ := h
      simp
    | some p =>
      simp only [Queue.putPm] at h
      split at h
      · simp at h
      · split at h <;>
        · simp only [Option.map_some, Option.some.injEq, Prod.mk.injEq] at h
          obtain ⟨rfl, -⟩ := h
          simp
  · split at h
    · cases pm with
      | none =>
        simp only [Option.some.injEq, Prod.mk.injEq] at h
        obtain ⟨rfl, -⟩ := h
        simp
      | some p =>
        simp only [Queue.putPm] at h
        split at h
        · simp at h
        · split at h <;>
          · simp only [Option.map_some, Option.some.injEq, Prod.mk.injEq] at h
            obtain ⟨rfl, -⟩ := h
            simp
    · simp at h

theorem setEof_fields (w : Queue γ) :
    w.setEof.dataLen = w.dataLen ∧ w.setEof.d0 = w.d0 ∧ w.setEof.d1 = w.d1 ∧
      w.setEof.cmLen = w.cmLen ∧ w.setEof.c0 = w.c0 ∧ w.setEof.c1 = w.c1 ∧
      w.setEof.result = w.result ∧ w.setEof.r0 = w.r0 ∧ w.setEof.r1 = w.r1 ∧ w.setEof.p0 = w.p0 ∧
      w.setEof.p1 = w.p1 ∧ w.setEof.err = w.err ∧ w.setEof.waiters = w.waiters := by
  unfold Queue.setEof
  split <;> simp

theorem pushEof_fst (w : Queue γ) : w.pushEof.1 = w.setEof := by
  unfold Queue.pushEof
  split <;> rfl

theorem pushCmd_fields (w : Queue γ) (c : Cmd γ) :
    (w.pushCmd c).1.dataLen = w.dataLen ∧ (w.pushCmd c).1.d0 = w.d0 ∧ (w.pushCmd c).1.d1 = w.d1 ∧
      (w.pushCmd c).1.cmLen = w.cmLen ∧ (w.pushCmd c).1.c0 = w.c0 ∧ (w.pushCmd c).1.c1 = w.c1 ∧
      (w.pushCmd c).1.r0 = w.r0 ∧ (w.pushCmd c).1.r1 = w.r1 ∧ (w.pushCmd c).1.status = w.status ∧
      (w.pushCmd c).1.err = w.err := by
  unfold Queue.pushCmd
  split
  · simp
  · split
    · split
      · simp
      · split
        · split <;> simp
        · simp
    · simp

theorem pushConsumed_fields (w : Queue γ) (b : Range) :
    (w.pushConsumed b).1.dataLen = w.dataLen ∧ (w.pushConsumed b).1.d0 = w.d0 ∧
      (w.pushConsumed b).1.d1 = w.d1 ∧ (w.pushConsumed b).1.cmLen = w.cmLen ∧
      (w.pushConsumed b).1.c0 = w.c0 ∧ (w.pushConsumed b).1.c1 = w.c1 ∧
      (w.pushConsumed b).1.result = w.result ∧ (w.pushConsumed b).1.p0 = w.p0 ∧
      (w.pushConsumed b).1.p1 = w.p1 ∧ (w.pushConsumed b).1.status = w.status ∧
      (w.pushConsumed b).1.err = w.err := by
  unfold Queue.pushConsumed
  split
  · simp
  · split
    · simp
    · split <;> simp

theorem push_fields (w : Queue γ) (b : Range) :
    (w.push b).1.cmLen = w.cmLen ∧ (w.push b).1.c0 = w.c0 ∧ (w.push b).1.c1 = w.c1 ∧
      (w.push b).1.result = w.result ∧ (w.push b).1.r0 = w.r0 ∧ (w.push b).1.r1 = w.r1 ∧
      (w.push b).1.p0 = w.p0 ∧ (w.push b).1.p1 = w.p1 ∧ (w.push b).1.status = w.status ∧
      (w.push b).1.err = w.err := by
  unfold Queue.push
  split
  · simp
  · split <;> simp

theorem pushCm_fields (w : Queue γ) (p : Pm) :
    (w.pushCm p).1.dataLen = w.dataLen ∧ (w.pushCm p).1.d0 = w.d0 ∧ (w.pushCm p).1.d1 = w.d1 ∧
      (w.pushCm p).1.result = w.result ∧ (w.pushCm p).1.r0 = w.r0 ∧ (w.pushCm p).1.r1 = w.r1 ∧
      (w.pushCm p).1.p0 = w.p0 ∧ (w.pushCm p).1.p1 = w.p1 ∧ (w.pushCm p).1.status = w.status ∧
      (w.pushCm p).1.err = w.err := by
  unfold Queue.pushCm
  split
  · simp
  · split <;> simp

theorem pullCm_fields (w : Queue γ) :
    w.pullCm.1.dataLen = w.dataLen ∧ w.pullCm.1.d0 = w.d0 ∧ w.pullCm.1.d1 = w.d1 ∧
      w.pullCm.1.result = w.result ∧ w.pullCm.1.r0 = w.r0 ∧ w.pullCm.1.r1 = w.r1 ∧
      w.pullCm.1.p0 = w.p0 ∧ w.pullCm.1.p1 = w.p1 ∧ w.pullCm.1.status = w.status ∧
      w.pullCm.1.err = w.err := by
  unfold Queue.pullCm
  split
  · simp
  · split <;> simp

theorem pullData_fields (w : Queue γ) :
    w.pullData.1.cmLen = w.cmLen ∧ w.pullData.1.c0 = w.c0 ∧ w.pullData.1.c1 = w.c1 ∧
      w.pullData.1.result = w.result ∧ w.pullData.1.r0 = w.r0 ∧ w.pullData.1.r1 = w.r1 ∧
      w.pullData.1.p0 = w.p0 ∧ w.pullData.1.p1 = w.p1 ∧ w.pullData.1.status = w.status ∧
      w.pullData.1.err = w.err := by
  unfold Queue.pullData
  split
  · simp
  · split <;> simp

theorem pull_eq {w w' : Queue γ} {out res : CBuf γ} {cons bufs : Range × Range} {pm pms : Pm × Pm}
    {s : Status} (h : w.pull out cons pm = some (w', res, bufs, pms, s)) :
    w' = { w with result := out, r0 := cons.1, r1 := cons.2, p0 := pm.1, p1 := pm.2 } ∧
      res = w.result ∧ bufs = (w.r0, w.r1) ∧ pms = (w.p0, w.p1) ∧ s = w.status := by
  unfold Queue.pull at h
  split at h
  · simp at h
  · simp only [Option.some.injEq, Prod.mk.injEq] at h
    obtain ⟨rfl, rfl, rfl, rfl, rfl⟩ := h
    simp

/-- A call of `pull` in a history. -/
theorem step_pull {w w' : Queue γ} {x : Obs γ} (h : step w .pull = some (w', x)) :
    w' = { w with result := ⟨slots, []⟩, r0 := .none, r1 := .none, p0 := .empty, p1 := .empty } ∧
      x = .pull w.result.cmds (w.r0, w.r1) (w.p0, w.p1) w.status := by
  simp only [step, Option.map_eq_some_iff] at h
  obtain ⟨⟨w1, res, bufs, pms, s⟩, h1, h2⟩ := h
  obtain ⟨rfl, rfl, rfl, rfl, rfl⟩ := pull_eq h1
  simp only [Prod.mk.injEq] at h2
  exact ⟨h2.1.symm, h2.2.symm⟩

/-- A batch in a history. -/
theorem step_insert {w w' : Queue γ} {x : Obs γ} {cs : List γ} {pm : Option Pm}
    (h : step w (.insert cs pm) = some (w', x)) :
    (batch cs pm).cmds.length ≤ slots ∧ x = .insert cs pm ∧
      ∃ buf' n, w.insert (batch cs pm) pm = some (w', buf', n) := by
  simp only [step] at h
  split at h
  · next hl =>
    simp only [Option.map_eq_some_iff, Prod.mk.injEq] at h
    obtain ⟨⟨w1, buf', n⟩, h1, rfl, rfl⟩ := h
    exact ⟨hl, rfl, buf', n, h1⟩
  · simp at h

/-- Invariant: what was handed over is what was taken and what waits. -/
def DataInv (w : Queue γ) (log : List (Obs γ)) : Prop :=
  ∃ l, WData w l ∧ pushedData log = takenData log ++ l

theorem pushedData_snoc (log : List (Obs γ)) (x : Obs γ) :
    pushedData (log ++ [x]) = pushedData log ++ pushedData [x] := by simp [pushedData]

theorem takenData_snoc (log : List (Obs γ)) (x : Obs γ) :
    takenData (log ++ [x]) = takenData log ++ takenData [x] := by simp [takenData]

theorem dataInv_same {w w' : Queue γ} {log : List (Obs γ)} {x : Obs γ} (h : DataInv w log)
    (h1 : w'.dataLen = w.dataLen ∧ w'.d0 = w.d0 ∧ w'.d1 = w.d1) (h2 : pushedData [x] = [])
    (h3 : takenData [x] = []) : DataInv w' (log ++ [x]) := by
  obtain ⟨l, hl, he⟩ := h
  refine ⟨l, hl.congr h1.1 h1.2.1 h1.2.2, ?_⟩
  rw [pushedData_snoc, takenData_snoc, h2, h3, List.append_nil, List.append_nil, he]

theorem dataInv_step (w : Queue γ) (log : List (Obs γ)) (o : Op γ) (w' : Queue γ) (x : Obs γ)
    (h : DataInv w log) (hs : step w o = some (w', x)) : DataInv w' (log ++ [x]) := by
  cases o with
  | push b =>
    simp only [step, Option.some.injEq, Prod.mk.injEq] at hs
    obtain ⟨rfl, rfl⟩ := hs
    unfold Queue.push
    by_cases hc : w.dataLen = 2 ∨ b.bytes = []
    · rw [if_pos hc]
      exact dataInv_same h ⟨rfl, rfl, rfl⟩ rfl rfl
    · rw [if_neg hc]
      obtain ⟨l, hl, he⟩ := h
      refine ⟨l ++ [b], ?_, ?_⟩
      · cases hl with
        | zero h0 => rw [if_pos h0]; exact .one rfl rfl
        | one h1 k =>
          rw [if_neg (by omega)]
          exact .two (by simp only [h1]) k rfl
        | two h1 _ _ => exact absurd (Or.inl h1) hc
      · rw [pushedData_snoc, takenData_snoc, he]
        split <;> simp [pushedData, takenData]
  | pullData =>
    simp only [step, Option.some.injEq, Prod.mk.injEq] at hs
    obtain ⟨rfl, rfl⟩ := hs
    unfold Queue.pullData
    cases herr : w.err with
    | some e => exact dataInv_same h ⟨rfl, rfl, rfl⟩ rfl rfl
    | none =>
      simp only
      by_cases hc : w.dataLen = 0
      · rw [if_pos hc]
        exact dataInv_same h ⟨rfl, rfl, rfl⟩ rfl rfl
      · rw [if_neg hc]
        obtain ⟨l, hl, he⟩ := h
        cases hl with
        | zero h0 => exact absurd h0 hc
        | @one a h1 k =>
          refine ⟨[], .zero (by simp only; omega), ?_⟩
          rw [pushedData_snoc, takenData_snoc, he, k]
          simp [pushedData, takenData]
        | @two a b h1 k m =>
          refine ⟨[b], .one (by simp only; omega) m, ?_⟩
          rw [pushedData_snoc, takenData_snoc, he, k]
          simp [pushedData, takenData]
  | pushCm p =>
    simp only [step, Option.some.injEq, Prod.mk.injEq] at hs
    obtain ⟨rfl, rfl⟩ := hs
    obtain ⟨h1, h2, h3, -⟩ := pushCm_fields w p
    exact dataInv_same h ⟨h1, h2, h3⟩ rfl rfl
  | pull =>
    obtain ⟨rfl, rfl⟩ := step_pull hs
    exact dataInv_same h ⟨rfl, rfl, rfl⟩ rfl rfl
  | pullCm =>
    simp only [step, Option.some.injEq, Prod.mk.injEq] at hs
    obtain ⟨rfl, rfl⟩ := hs
    obtain ⟨h1, h2, h3, -⟩ := pullCm_fields w
    exact dataInv_same h ⟨h1, h2, h3⟩ rfl rfl
  | pushCmd c =>
    simp only [step, Option.some.injEq, Prod.mk.injEq] at hs
    obtain ⟨rfl, rfl⟩ := hs
    obtain ⟨h1, h2, h3, -⟩ := pushCmd_fields w c
    exact dataInv_same h ⟨h1, h2, h3⟩ rfl rfl
  | pushConsumed b =>
    simp only [step, Option.some.injEq, Prod.mk.injEq] at hs
    obtain ⟨rfl, rfl⟩ := hs
    obtain ⟨h1, h2, h3, -⟩ := pushConsumed_fields w b
    exact dataInv_same h ⟨h1, h2, h3⟩ rfl rfl
  | pushEof =>
    simp only [step, Option.some.injEq, Prod.mk.injEq] at hs
    obtain ⟨rfl, rfl⟩ := hs
    rw [pushEof_fst]
    obtain ⟨h1, h2, h3, -⟩ := setEof_fields w
    exact dataInv_same h ⟨h1, h2, h3⟩ rfl rfl
  | insert cs pm =>
    obtain ⟨-, rfl, buf', n, hi⟩ := step_insert hs
    obtain ⟨h1, h2, h3, -⟩ := insert_fields hi
    exact dataInv_same h ⟨h1, h2, h3⟩ rfl rfl
  | fail e =>
    simp only [step, Option.some.injEq, Prod.mk.injEq] at hs
    obtain ⟨rfl, rfl⟩ := hs
    exact dataInv_same h ⟨rfl, rfl, rfl⟩ rfl rfl
  | failMain e =>
    simp only [step, Option.some.injEq, Prod.mk.injEq] at hs
    obtain ⟨rfl, rfl⟩ := hs
    exact dataInv_same h ⟨rfl, rfl, rfl⟩ rfl rfl

theorem dataInv_run {ops : List (Op γ)} {w : Queue γ} {log : List (Obs γ)}
    (hr : run ops (Queue.new γ) = some (w, log)) : DataInv w log := by
  have := run_inv (P := DataInv) dataInv_step (log := []) ⟨[], .zero rfl, rfl⟩ hr
  simpa using this

/-- **C28, data.** In every interleaving of calls of the two sides: the worker gets the buffers main
handed over, in the same order, none dropped, none twice; at most two are waiting. -/
theorem data_in_order {ops : List (Op γ)} {w : Queue γ} {log : List (Obs γ)}
    (hr : run ops (Queue.new γ) = some (w, log)) :
    takenData log <+: pushedData log ∧
      (pushedData log).length ≤ (takenData log).length + 2 := by
  obtain ⟨l, hl, he⟩ := dataInv_run hr
  refine ⟨⟨l, he.symm⟩, ?_⟩
  rw [he, List.length_append]
  cases hl <;> simp

/-- Nothing is dropped: when the worker finds nothing, it has got all that main handed over. -/
theorem data_all {ops : List (Op γ)} {w : Queue γ} {log : List (Obs γ)}
    (hr : run (ops ++ [.pullData]) (Queue.new γ) = some (w, log))
    (hy : log.getLast? = some (.pullData .yield)) : takenData log = pushedData log := by
  obtain ⟨w1, l1, l2, h1, h2, rfl⟩ := run_append hr
  obtain ⟨l, hl, he⟩ := dataInv_run h1
  simp only [run, step, Option.map_some, Option.some.injEq, Prod.mk.injEq] at h2
  obtain ⟨rfl, rfl⟩ := h2
  simp only [List.getLast?_append, List.getLast?_singleton, Option.some_or, Option.some.injEq,
    Obs.pullData.injEq] at hy
  rw [hy, pushedData_snoc, takenData_snoc, he]
  unfold Queue.pullData at hy
  split at hy
  · simp at hy
  · split at hy
    · next h0 =>
      cases hl with
      | zero _ => simp [pushedData, takenData]
      | one h _ => omega
      | two h _ _ => omega
    · simp only at hy
      split at hy <;> simp at hy

/-- A buffer that is not accepted stays with main, and the queue stays as it is. -/
theorem rejected_kept (w : Queue γ) (b : Range) (h : (w.push b).2.2 = false) :
    (w.push b).1 = w ∧ (w.push b).2.1 = b := by
  unfold Queue.push at h ⊢
  split
  · simp
  · next hc =>
    rw [if_neg hc] at h
    split at h <;> simp at h

/-! ### Commands, from the worker to main -/

/-- The number of prediction modes. -/
def modes : List (Static γ) → Nat
  | [] => 0
  | .pm :: t => modes t + 1
  | .other _ :: t => modes t

theorem modes_append (a b : List (Static γ)) : modes (a ++ b) = modes a + modes b := by
  induction a with
  | nil => simp [modes]
  | cons x t ih => cases x <;> simp [modes, ih]; omega

theorem modes_others (cs : List γ) : modes (cs.map Static.other) = 0 := by
  induction cs with
  | nil => rfl
  | cons _ _ ih => simp [modes, ih]

theorem attach_others (cs : List (Static γ)) (xs : List γ) (ps : Pm × Pm) :
    attach (cs ++ xs.map .other) ps = attach cs ps ++ xs.map .other := by
  induction cs generalizing ps with
  | nil =>
    induction xs with
    | nil => rfl
    | cons _ _ ih => simpa [attach] using ih
  | cons x t ih => cases x <;> simp [attach, ih]

theorem attach_no_mode {cs : List (Static γ)} (h : modes cs = 0) (ps qs : Pm × Pm) :
    attach cs ps = attach cs qs := by
  induction cs generalizing ps qs with
  | nil => rfl
  | cons x t ih =>
    cases x with
    | pm => simp [modes] at h
    | other c =>
      simp only [attach]
      rw [ih h]

theorem attach_first {cs : List (Static γ)} (h : modes cs = 0) (p : Pm) (q : Pm) :
    attach (cs ++ [.pm]) (p, q) = attach cs (p, q) ++ [.pm p] := by
  induction cs with
  | nil => rfl
  | cons x t ih =>
    cases x with
    | pm => simp [modes] at h
    | other c => simp only [List.cons_append, attach]; rw [ih h]

theorem attach_one_mode {cs : List (Static γ)} (h : modes cs = 1) (p q q' : Pm) :
    attach cs (p, q) = attach cs (p, q') := by
  induction cs with
  | nil => rfl
  | cons x t ih =>
    cases x with
    | pm =>
      simp only [attach]
      rw [attach_no_mode (by simpa [modes] using h)]
    | other c =>
      simp only [attach]
      rw [ih h]

theorem attach_second {cs : List (Static γ)} (h : modes cs = 1) (p q : Pm) :
    attach (cs ++ [.pm]) (p, q) = attach cs (p, q) ++ [.pm q] := by
  induction cs with
  | nil => simp [modes] at h
  | cons x t ih =>
    cases x with
    | pm =>
      simp only [List.cons_append, attach]
      rw [attach_first (by simpa [modes] using h)]
    | other c => simp only [List.cons_append, attach]; rw [ih h]

/-- The maps waiting for main. -/
inductive WPm (w : Queue γ) : Nat → Prop
  | zero : w.p0.speeds = false → w.p1.speeds = false → WPm w 0
  | one : w.p0.speeds = true → w.p1.speeds = false → WPm w 1
  | two : w.p0.speeds = true → w.p1.speeds = true → WPm w 2

theorem WPm.congr {w w' : Queue γ} {n : Nat} (h : WPm w n) (h0 : w'.p0 = w.p0) (h1 : w'.p1 = w.p1) :
    WPm w' n := by
  cases h with
  | zero a b => exact .zero (by rw [h0, a]) (by rw [h1, b])
  | one a b => exact .one (by rw [h0, a]) (by rw [h1, b])
  | two a b => exact .two (by rw [h0, a]) (by rw [h1, b])

theorem sentCmds_snoc (log : List (Obs γ)) (x : Obs γ) :
    sentCmds (log ++ [x]) = sentCmds log ++ sentCmds [x] := by simp [sentCmds]

theorem receivedCmds_snoc (log : List (Obs γ)) (x : Obs γ) :
    receivedCmds (log ++ [x]) = receivedCmds log ++ receivedCmds [x] := by simp [receivedCmds]

/-- Invariant for the commands. -/
structure CmdInv (w : Queue γ) (log : List (Obs γ)) : Prop where
  cap : w.result.cap = slots
  len : w.result.cmds.length ≤ slots
  pms : WPm w (modes w.result.cmds)
  eq : sentCmds log = receivedCmds log ++ attach w.result.cmds (w.p0, w.p1)

theorem cmdInv_same {w w' : Queue γ} {log : List (Obs γ)} {x : Obs γ} (h : CmdInv w log)
    (h1 : w'.result = w.result ∧ w'.p0 = w.p0 ∧ w'.p1 = w.p1) (h2 : sentCmds [x] = [])
    (h3 : receivedCmds [x] = []) : CmdInv w' (log ++ [x]) := by
  obtain ⟨a, b, c, d⟩ := h
  obtain ⟨e1, e2, e3⟩ := h1
  refine ⟨by rw [e1, a], by rw [e1]; exact b, by rw [e1]; exact c.congr e2 e3, ?_⟩
  rw [sentCmds_snoc, receivedCmds_snoc, h2, h3, List.append_nil, List.append_nil, e1, e2, e3, d]

/-- Adding plain commands. -/
theorem cmdInv_plain {w w' : Queue γ} {log : List (Obs γ)} {x : Obs γ} {cs : List γ}
    (h : CmdInv w log)
    (h1 : w'.result = ⟨slots, w.result.cmds ++ cs.map .other⟩ ∧ w'.p0 = w.p0 ∧ w'.p1 = w.p1)
    (hl : w.result.cmds.length + cs.length ≤ slots) (h2 : sentCmds [x] = cs.map .other)
    (h3 : receivedCmds [x] = []) : CmdInv w' (log ++ [x]) := by
  obtain ⟨a, b, c, d⟩ := h
  obtain ⟨e1, e2, e3⟩ := h1
  refine ⟨by rw [e1], by rw [e1]; simpa using hl, ?_, ?_⟩
  · rw [e1, modes_append, modes_others]; exact c.congr e2 e3
  · rw [sentCmds_snoc, receivedCmds_snoc, h2, h3, List.append_nil, e1, e2, e3, d, attach_others,
      List.append_assoc]

/-- Adding plain commands and a prediction mode. -/
theorem cmdInv_mode {w w' : Queue γ} {log : List (Obs γ)} {x : Obs γ} {cs : List γ} {p : Pm}
    (h : CmdInv w log) (hp : p.speeds = true)
    (h1 : w'.result = ⟨slots, w.result.cmds ++ (cs.map .other ++ [.pm])⟩)
    (h4 : (w.p0.speeds = false ∧ w'.p0 = p ∧ w'.p1 = w.p1) ∨
      (w.p0.speeds = true ∧ w.p1.speeds = false ∧ w'.p0 = w.p0 ∧ w'.p1 = p))
    (hl : w.result.cmds.length + cs.length + 1 ≤ slots) (h2 : sentCmds [x] = cs.map .other ++ [.pm p])
    (h3 : receivedCmds [x] = []) : CmdInv w' (log ++ [x]) := by
  obtain ⟨a, b, c, d⟩ := h
  have hm : modes (w.result.cmds ++ (cs.map Static.other ++ [.pm])) = modes w.result.cmds + 1 := by
    rw [modes_append, modes_append, modes_others]; simp [modes]
  refine ⟨by rw [h1], by rw [h1]; simpa [Nat.add_assoc] using hl, ?_, ?_⟩
  · rw [h1, hm]
    obtain ⟨n, hn⟩ : ∃ n, n = modes w.result.cmds := ⟨_, rfl⟩
    rw [← hn] at c ⊢
    rcases h4 with ⟨k1, k2, k3⟩ | ⟨k1, k2, k3, k4⟩
    · cases c with
      | zero u v => exact .one (by rw [k2, hp]) (by rw [k3, v])
      | one u v => rw [k1] at u; simp at u
      | two u v => rw [k1] at u; simp at u
    · cases c with
      | zero u v => rw [k1] at u; simp at u
      | one u v => exact .two (by rw [k3, u]) (by rw [k4, hp])
      | two u v => rw [k2] at v; simp at v
  · rw [sentCmds_snoc, receivedCmds_snoc, h2, h3, List.append_nil, h1, d, ← List.append_assoc _ _ [Static.pm]]
    obtain ⟨n, hn⟩ : ∃ n, n = modes w.result.cmds := ⟨_, rfl⟩
    rw [← hn] at c
    have hm2 : modes (w.result.cmds ++ cs.map Static.other) = n := by
      rw [modes_append, modes_others, hn]; rfl
    rcases h4 with ⟨k1, k2, k3⟩ | ⟨k1, k2, k3, k4⟩
    · cases c with
      | zero u v =>
        rw [attach_first hm2, k2, attach_others, attach_no_mode hn.symm (p, w'.p1) (w.p0, w.p1)]
        simp [List.append_assoc]
      | one u v => rw [k1] at u; simp at u
      | two u v => rw [k1] at u; simp at u
    · cases c with
      | zero u v => rw [k1] at u; simp at u
      | one u v =>
        rw [attach_second hm2, k4, attach_others, k3, attach_one_mode hn.symm w.p0 p w.p1]
        simp [List.append_assoc]
      | two u v => rw [k2] at v; simp at v

theorem cmdInv_step (w : Queue γ) (log : List (Obs γ)) (o : Op γ) (w' : Queue γ) (x : Obs γ)
    (h : CmdInv w log) (hreal : RealModes [x]) (hs : step w o = some (w', x)) :
    CmdInv w' (log ++ [x]) := by
  cases o with
  | push b =>
    simp only [step, Option.some.injEq, Prod.mk.injEq] at hs
    obtain ⟨rfl, rfl⟩ := hs
    obtain ⟨-, -, -, h1, -, -, h2, h3, -⟩ := push_fields w b
    exact cmdInv_same h ⟨h1, h2, h3⟩ rfl rfl
  | pullData =>
    simp only [step, Option.some.injEq, Prod.mk.injEq] at hs
    obtain ⟨rfl, rfl⟩ := hs
    obtain ⟨-, -, -, h1, -, -, h2, h3, -⟩ := pullData_fields w
    exact cmdInv_same h ⟨h1, h2, h3⟩ rfl rfl
  | pushCm p =>
    simp only [step, Option.some.injEq, Prod.mk.injEq] at hs
    obtain ⟨rfl, rfl⟩ := hs
    obtain ⟨-, -, -, h1, -, -, h2, h3, -⟩ := pushCm_fields w p
    exact cmdInv_same h ⟨h1, h2, h3⟩ rfl rfl
  | pull =>
    obtain ⟨rfl, rfl⟩ := step_pull hs
    refine ⟨rfl, Nat.zero_le _, .zero rfl rfl, ?_⟩
    rw [sentCmds_snoc, receivedCmds_snoc, h.eq]
    simp [sentCmds, receivedCmds, attach]
  | pullCm =>
    simp only [step, Option.some.injEq, Prod.mk.injEq] at hs
    obtain ⟨rfl, rfl⟩ := hs
    obtain ⟨-, -, -, h1, -, -, h2, h3, -⟩ := pullCm_fields w
    exact cmdInv_same h ⟨h1, h2, h3⟩ rfl rfl
  | pushCmd c =>
    simp only [step, Option.some.injEq, Prod.mk.injEq] at hs
    obtain ⟨rfl, rfl⟩ := hs
    unfold Queue.pushCmd at hreal ⊢
    cases herr : w.err with
    | some e => exact cmdInv_same h ⟨rfl, rfl, rfl⟩ rfl rfl
    | none =>
      simp only [herr] at hreal ⊢
      by_cases hc : w.result.cmds.length < w.result.cap
      · rw [if_pos hc] at hreal ⊢
        have hcap := h.cap
        cases c with
        | other y =>
          exact cmdInv_plain (cs := [y]) h ⟨by simp [hcap], rfl, rfl⟩ (by simp; omega)
            (by simp [sentCmds]) rfl
        | pm p =>
          simp only at hreal ⊢
          by_cases h0 : w.p0.speeds = true
          · rw [if_pos h0] at hreal ⊢
            by_cases h1 : w.p1.speeds = true
            · rw [if_pos h1]
              exact cmdInv_same h ⟨rfl, rfl, rfl⟩ rfl rfl
            · rw [if_neg h1] at hreal ⊢
              exact cmdInv_mode (cs := []) (p := p) h (hreal p (by simp [sentCmds])) (by simp [hcap])
                (Or.inr ⟨h0, by simpa using h1, rfl, rfl⟩) (by simp; omega) (by simp [sentCmds]) rfl
          · rw [if_neg h0] at hreal ⊢
            exact cmdInv_mode (cs := []) (p := p) h (hreal p (by simp [sentCmds])) (by simp [hcap])
              (Or.inl ⟨by simpa using h0, rfl, rfl⟩) (by simp; omega) (by simp [sentCmds]) rfl
      · rw [if_neg hc]
        exact cmdInv_same h ⟨rfl, rfl, rfl⟩ rfl rfl
  | pushConsumed b =>
    simp only [step, Option.some.injEq, Prod.mk.injEq] at hs
    obtain ⟨rfl, rfl⟩ := hs
    obtain ⟨-, -, -, -, -, -, h1, h2, h3, -⟩ := pushConsumed_fields w b
    exact cmdInv_same h ⟨h1, h2, h3⟩ rfl rfl
  | pushEof =>
    simp only [step, Option.some.injEq, Prod.mk.injEq] at hs
    obtain ⟨rfl, rfl⟩ := hs
    rw [pushEof_fst]
    obtain ⟨-, -, -, -, -, -, h1, -, -, h2, h3, -⟩ := setEof_fields w
    exact cmdInv_same h ⟨h1, h2, h3⟩ rfl rfl
  | insert cs pm =>
    obtain ⟨hlen, rfl, buf', n, hi⟩ := step_insert hs
    have hcap := h.cap
    -- the block after the batch
    have hb : ∃ w1, w1 = ({ w with
          result := ⟨slots, w.result.cmds ++ (batch cs pm).cmds⟩ } : Queue γ) ∧
        w.result.cmds.length + (batch cs pm).cmds.length ≤ slots ∧
        (match pm with
          | none => some w1
          | some p => w1.putPm p) = some w' := by
      unfold Queue.insert at hi
      simp only at hi
      by_cases h0 : w.result.cmds.length = 0
      · rw [if_pos h0] at hi
        have h00 : w.result.cmds = [] := List.length_eq_zero_iff.mp h0
        refine ⟨_, rfl, by omega, ?_⟩
        have hbe : (batch cs pm) = ⟨slots, w.result.cmds ++ (batch cs pm).cmds⟩ := by
          rw [h00]; rfl
        rw [← hbe]
        cases pm with
        | none =>
          simp only [Option.some.injEq, Prod.mk.injEq] at hi ⊢
          exact hi.1
        | some p =>
          simp only [Option.map_eq_some_iff, Prod.mk.injEq] at hi
          obtain ⟨w2, k1, rfl, -⟩ := hi
          exact k1
      · rw [if_neg h0] at hi
        split at hi
        · next hfit =>
          rw [hcap] at hfit hi
          refine ⟨_, rfl, hfit, ?_⟩
          cases pm with
          | none =>
            simp only [Option.some.injEq, Prod.mk.injEq] at hi ⊢
            exact hi.1
          | some p =>
            simp only [Option.map_eq_some_iff, Prod.mk.injEq] at hi
            obtain ⟨w2, k1, rfl, -⟩ := hi
            exact k1
        · simp at hi
    obtain ⟨w1, hw1, hfit, hpm⟩ := hb
    cases pm with
    | none =>
      simp only [Option.some.injEq] at hpm
      subst hpm
      subst hw1
      refine cmdInv_plain (cs := cs) h ⟨by simp [batch], rfl, rfl⟩ (by simpa [batch] using hfit)
        (by simp [sentCmds]) rfl
    | some p =>
      simp only [Queue.putPm] at hpm
      have e1 : w1.p0 = w.p0 := by rw [hw1]
      have e2 : w1.p1 = w.p1 := by rw [hw1]
      have e3 : w1.result = ⟨slots, w.result.cmds ++ (cs.map .other ++ [.pm])⟩ := by
        rw [hw1]; simp [batch]
      have hreal' : p.speeds = true := hreal p (by simp [sentCmds])
      have hfit' : w.result.cmds.length + cs.length + 1 ≤ slots := by
        simpa [batch, Nat.add_assoc] using hfit
      rw [e1, e2] at hpm
      split at hpm
      · simp at hpm
      · next h1 =>
        split at hpm
        · next h0 =>
          simp only [Option.some.injEq] at hpm
          subst hpm
          exact cmdInv_mode h hreal' e3 (Or.inr ⟨h0, by simpa using h1, rfl, rfl⟩) hfit'
            (by simp [sentCmds]) rfl
        · next h0 =>
          simp only [Option.some.injEq] at hpm
          subst hpm
          exact cmdInv_mode h hreal' e3 (Or.inl ⟨by simpa using h0, rfl, rfl⟩) hfit'
            (by simp [sentCmds]) rfl
  | fail e =>
    simp only [step, Option.some.injEq, Prod.mk.injEq] at hs
    obtain ⟨rfl, rfl⟩ := hs
    exact cmdInv_same h ⟨rfl, rfl, rfl⟩ rfl rfl
  | failMain e =>
    simp only [step, Option.some.injEq, Prod.mk.injEq] at hs
    obtain ⟨rfl, rfl⟩ := hs
    exact cmdInv_same h ⟨rfl, rfl, rfl⟩ rfl rfl

theorem cmdInv_run {ops : List (Op γ)} {w : Queue γ} {log : List (Obs γ)}
    (hr : run ops (Queue.new γ) = some (w, log)) (hreal : RealModes log) : CmdInv w log := by
  have := run_inv (P := fun w log => RealModes log → CmdInv w log)
    (fun w log o w' x h hs hreal => by
      refine cmdInv_step w log o w' x (h fun p hp => hreal p ?_) (fun p hp => hreal p ?_) hs
      · rw [sentCmds_snoc]; exact List.mem_append_left _ hp
      · rw [sentCmds_snoc]; exact List.mem_append_right _ hp)
    (log := [])
    (fun _ => ⟨rfl, Nat.zero_le _, .zero rfl rfl, rfl⟩) hr
  simp only [List.nil_append] at this
  exact this hreal

/-- **C28, commands.** In every interleaving of calls of the two sides: main gets the commands the worker
handed over, in the same order, each prediction mode with its own map; none is dropped, none comes
twice; at most 256 are waiting. -/
theorem commands_in_order {ops : List (Op γ)} {w : Queue γ} {log : List (Obs γ)}
    (hr : run ops (Queue.new γ) = some (w, log)) (hreal : RealModes log) :
    receivedCmds log <+: sentCmds log ∧
      (sentCmds log).length ≤ (receivedCmds log).length + slots := by
  have h := cmdInv_run hr hreal
  refine ⟨⟨_, h.eq.symm⟩, ?_⟩
  have hl : ∀ (cs : List (Static γ)) (ps : Pm × Pm), (attach cs ps).length = cs.length := by
    intro cs
    induction cs with
    | nil => intro _; rfl
    | cons x t ih => intro ps; cases x <;> simp [attach, ih]
  rw [h.eq, List.length_append, hl]
  have := h.len
  omega

/-- Nothing is dropped: right after a pull main has all the commands the worker handed over. -/
theorem commands_all {ops : List (Op γ)} {w : Queue γ} {log : List (Obs γ)}
    (hr : run (ops ++ [.pull]) (Queue.new γ) = some (w, log)) (hreal : RealModes log) :
    receivedCmds log = sentCmds log := by
  have h := cmdInv_run hr hreal
  obtain ⟨w1, l1, l2, h1, h2, rfl⟩ := run_append hr
  have h3 : w.result.cmds = [] := by
    simp only [run] at h2
    cases hst : step w1 .pull with
    | none => rw [hst] at h2; simp at h2
    | some y =>
      rw [hst] at h2
      simp only [Option.map_some, Option.some.injEq, Prod.mk.injEq] at h2
      have := (step_pull (x := y.2) (w' := y.1) hst).1
      rw [← h2.1, this]
  rw [h.eq, h3]
  simp [attach]

/-- The assertions of `pull` hold in every history. -/
theorem pull_never_panics {ops : List (Op γ)} {w : Queue γ} {log : List (Obs γ)}
    (hr : run ops (Queue.new γ) = some (w, log)) (hreal : RealModes log) :
    (step w .pull).isSome := by
  have h := cmdInv_run hr hreal
  simp only [step, Option.isSome_map]
  unfold Queue.pull
  rw [if_neg]
  · rfl
  · rintro ⟨h1, h2⟩
    have := h.pms
    rw [h1] at this
    cases this with
    | zero a b => rw [a, b] at h2; simp at h2

/-- A command that is not accepted stays with the worker, and the queue stays as it is. -/
theorem refused_command_kept (w : Queue γ) (c : Cmd γ) (h : (w.pushCmd c).2.2 ≠ .success) :
    (w.pushCmd c).1 = w ∧ (w.pushCmd c).2.1 = c := by
  unfold Queue.pushCmd at h ⊢
  split
  · exact ⟨rfl, rfl⟩
  · next he =>
    simp only [he] at h
    split
    · next hc =>
      rw [if_pos hc] at h
      split
      · simp at h
      · next p =>
        simp only at h
        split
        · next h0 =>
          rw [if_pos h0] at h
          split
          · exact ⟨rfl, rfl⟩
          · next h1 => rw [if_neg h1] at h; simp at h
        · next h0 => rw [if_neg h0] at h; simp at h
    · exact ⟨rfl, rfl⟩

/-! ### Blocks of memory, back from the worker -/

/-- The blocks waiting for main. -/
inductive WBufs (w : Queue γ) : List Range → Prop
  | zero : w.r0.cap = 0 → w.r1.cap = 0 → WBufs w []
  | one : w.r0.cap ≠ 0 → w.r1.cap = 0 → WBufs w [w.r0]
  | two : w.r0.cap ≠ 0 → w.r1.cap ≠ 0 → WBufs w [w.r0, w.r1]

theorem sentBufs_snoc (log : List (Obs γ)) (x : Obs γ) :
    sentBufs (log ++ [x]) = sentBufs log ++ sentBufs [x] := by simp [sentBufs]

theorem receivedBufs_snoc (log : List (Obs γ)) (x : Obs γ) :
    receivedBufs (log ++ [x]) = receivedBufs log ++ receivedBufs [x] := by simp [receivedBufs]

/-- Invariant for the blocks. -/
def BufInv (w : Queue γ) (log : List (Obs γ)) : Prop :=
  ∃ l, WBufs w l ∧ sentBufs log = receivedBufs log ++ l

theorem bufInv_same {w w' : Queue γ} {log : List (Obs γ)} {x : Obs γ} (h : BufInv w log)
    (h1 : w'.r0 = w.r0 ∧ w'.r1 = w.r1) (h2 : sentBufs [x] = []) (h3 : receivedBufs [x] = []) :
    BufInv w' (log ++ [x]) := by
  obtain ⟨l, hl, he⟩ := h
  refine ⟨l, ?_, ?_⟩
  · cases hl with
    | zero a b => exact .zero (by rw [h1.1, a]) (by rw [h1.2, b])
    | one a b =>
      rw [← h1.1]
      exact .one (by rw [h1.1]; exact a) (by rw [h1.2, b])
    | two a b =>
      rw [← h1.1, ← h1.2]
      exact .two (by rw [h1.1]; exact a) (by rw [h1.2]; exact b)
  · rw [sentBufs_snoc, receivedBufs_snoc, h2, h3, List.append_nil, List.append_nil, he]

theorem bufInv_step (w : Queue γ) (log : List (Obs γ)) (o : Op γ) (w' : Queue γ) (x : Obs γ)
    (h : BufInv w log) (hs : step w o = some (w', x)) : BufInv w' (log ++ [x]) := by
  cases o with
  | push b =>
    simp only [step, Option.some.injEq, Prod.mk.injEq] at hs
    obtain ⟨rfl, rfl⟩ := hs
    obtain ⟨-, -, -, -, h1, h2, -⟩ := push_fields w b
    exact bufInv_same h ⟨h1, h2⟩ rfl rfl
  | pullData =>
    simp only [step, Option.some.injEq, Prod.mk.injEq] at hs
    obtain ⟨rfl, rfl⟩ := hs
    obtain ⟨-, -, -, -, h1, h2, -⟩ := pullData_fields w
    exact bufInv_same h ⟨h1, h2⟩ rfl rfl
  | pushCm p =>
    simp only [step, Option.some.injEq, Prod.mk.injEq] at hs
    obtain ⟨rfl, rfl⟩ := hs
    obtain ⟨-, -, -, -, h1, h2, -⟩ := pushCm_fields w p
    exact bufInv_same h ⟨h1, h2⟩ rfl rfl
  | pull =>
    obtain ⟨rfl, rfl⟩ := step_pull hs
    obtain ⟨l, hl, he⟩ := h
    refine ⟨[], .zero rfl rfl, ?_⟩
    rw [sentBufs_snoc, receivedBufs_snoc, he]
    cases hl with
    | zero a b => simp [sentBufs, receivedBufs, blocks, a, b]
    | one a b => simp [sentBufs, receivedBufs, blocks, a, b]
    | two a b => simp [sentBufs, receivedBufs, blocks, a, b]
  | pullCm =>
    simp only [step, Option.some.injEq, Prod.mk.injEq] at hs
    obtain ⟨rfl, rfl⟩ := hs
    obtain ⟨-, -, -, -, h1, h2, -⟩ := pullCm_fields w
    exact bufInv_same h ⟨h1, h2⟩ rfl rfl
  | pushCmd c =>
    simp only [step, Option.some.injEq, Prod.mk.injEq] at hs
    obtain ⟨rfl, rfl⟩ := hs
    obtain ⟨-, -, -, -, -, -, h1, h2, -⟩ := pushCmd_fields w c
    exact bufInv_same h ⟨h1, h2⟩ rfl rfl
  | pushConsumed b =>
    simp only [step, Option.some.injEq, Prod.mk.injEq] at hs
    obtain ⟨rfl, rfl⟩ := hs
    unfold Queue.pushConsumed
    cases herr : w.err with
    | some e => exact bufInv_same h ⟨rfl, rfl⟩ rfl rfl
    | none =>
      simp only
      obtain ⟨l, hl, he⟩ := h
      by_cases h0 : w.r0.cap = 0
      · rw [if_pos h0]
        have hl0 : l = [] ∧ w.r1.cap = 0 := by
          cases hl with
          | zero _ b => exact ⟨rfl, b⟩
          | one a _ => exact absurd h0 a
          | two a _ => exact absurd h0 a
        by_cases hb : b.cap = 0
        · refine ⟨[], .zero hb hl0.2, ?_⟩
          rw [sentBufs_snoc, receivedBufs_snoc, he, hl0.1]
          simp [sentBufs, receivedBufs, blocks, hb]
        · refine ⟨[b], .one hb hl0.2, ?_⟩
          rw [sentBufs_snoc, receivedBufs_snoc, he, hl0.1]
          simp [sentBufs, receivedBufs, blocks, hb]
      · rw [if_neg h0]
        by_cases h1 : w.r1.cap = 0
        · rw [if_pos h1]
          have hl0 : l = [w.r0] := by
            cases hl with
            | zero a _ => exact absurd a h0
            | one _ _ => rfl
            | two _ b => exact absurd h1 b
          by_cases hb : b.cap = 0
          · refine ⟨[w.r0], .one h0 hb, ?_⟩
            rw [sentBufs_snoc, receivedBufs_snoc, he, hl0]
            simp [sentBufs, receivedBufs, blocks, hb]
          · refine ⟨[w.r0, b], .two h0 hb, ?_⟩
            rw [sentBufs_snoc, receivedBufs_snoc, he, hl0]
            simp [sentBufs, receivedBufs, blocks, hb]
        · rw [if_neg h1]
          exact bufInv_same ⟨l, hl, he⟩ ⟨rfl, rfl⟩ rfl rfl
  | pushEof =>
    simp only [step, Option.some.injEq, Prod.mk.injEq] at hs
    obtain ⟨rfl, rfl⟩ := hs
    rw [pushEof_fst]
    obtain ⟨-, -, -, -, -, -, -, h1, h2, -⟩ := setEof_fields w
    exact bufInv_same h ⟨h1, h2⟩ rfl rfl
  | insert cs pm =>
    obtain ⟨-, rfl, buf', n, hi⟩ := step_insert hs
    obtain ⟨-, -, -, -, -, -, h1, h2, -⟩ := insert_fields hi
    exact bufInv_same h ⟨h1, h2⟩ rfl rfl
  | fail e =>
    simp only [step, Option.some.injEq, Prod.mk.injEq] at hs
    obtain ⟨rfl, rfl⟩ := hs
    exact bufInv_same h ⟨rfl, rfl⟩ rfl rfl
  | failMain e =>
    simp only [step, Option.some.injEq, Prod.mk.injEq] at hs
    obtain ⟨rfl, rfl⟩ := hs
    exact bufInv_same h ⟨rfl, rfl⟩ rfl rfl

/-- **C28, memory.** The blocks of memory the worker gives back reach main in the same order, none lost,
none twice; at most two are waiting. -/
theorem blocks_in_order {ops : List (Op γ)} {w : Queue γ} {log : List (Obs γ)}
    (hr : run ops (Queue.new γ) = some (w, log)) :
    receivedBufs log <+: sentBufs log ∧ (sentBufs log).length ≤ (receivedBufs log).length + 2 := by
  have := run_inv (P := BufInv) bufInv_step (log := []) ⟨[], .zero rfl rfl, rfl⟩ hr
  simp only [List.nil_append] at this
  obtain ⟨l, hl, he⟩ := this
  refine ⟨⟨l, he.symm⟩, ?_⟩
  rw [he, List.length_append]
  cases hl <;> simp

/-! ### Context maps, back from main -/

/-- The maps waiting for the worker. -/
inductive WCms (w : Queue γ) : List Pm → Prop
  | zero : w.cmLen = 0 → WCms w []
  | one : w.cmLen = 1 → WCms w [w.c0]
  | two : w.cmLen = 2 → WCms w [w.c0, w.c1]

theorem pushedCms_snoc (log : List (Obs γ)) (x : Obs γ) :
    pushedCms (log ++ [x]) = pushedCms log ++ pushedCms [x] := by simp [pushedCms]

theorem takenCms_snoc (log : List (Obs γ)) (x : Obs γ) :
    takenCms (log ++ [x]) = takenCms log ++ takenCms [x] := by simp [takenCms]

/-- Invariant for the maps. -/
def CmInv (w : Queue γ) (log : List (Obs γ)) : Prop :=
  ∃ l, WCms w l ∧ (pushedCms log).Perm (takenCms log ++ l)

theorem cmInv_same {w w' : Queue γ} {log : List (Obs γ)} {x : Obs γ} (h : CmInv w log)
    (h1 : w'.cmLen = w.cmLen ∧ w'.c0 = w.c0 ∧ w'.c1 = w.c1) (h2 : pushedCms [x] = [])
    (h3 : takenCms [x] = []) : CmInv w' (log ++ [x]) := by
  obtain ⟨l, hl, he⟩ := h
  obtain ⟨k1, k2, k3⟩ := h1
  refine ⟨l, ?_, ?_⟩
  · cases hl with
    | zero a => exact .zero (by rw [k1, a])
    | one a => rw [← k2]; exact .one (by rw [k1, a])
    | two a => rw [← k2, ← k3]; exact .two (by rw [k1, a])
  · rw [pushedCms_snoc, takenCms_snoc, h2, h3, List.append_nil, List.append_nil]; exact he

theorem cmInv_step (w : Queue γ) (log : List (Obs γ)) (o : Op γ) (w' : Queue γ) (x : Obs γ)
    (h : CmInv w log) (hs : step w o = some (w', x)) : CmInv w' (log ++ [x]) := by
  cases o with
  | push b =>
    simp only [step, Option.some.injEq, Prod.mk.injEq] at hs
    obtain ⟨rfl, rfl⟩ := hs
    obtain ⟨h1, h2, h3, -⟩ := push_fields w b
    exact cmInv_same h ⟨h1, h2, h3⟩ rfl rfl
  | pullData =>
    simp only [step, Option.some.injEq, Prod.mk.injEq] at hs
    obtain ⟨rfl, rfl⟩ := hs
    obtain ⟨h1, h2, h3, -⟩ := pullData_fields w
    exact cmInv_same h ⟨h1, h2, h3⟩ rfl rfl
  | pushCm p =>
    simp only [step, Option.some.injEq, Prod.mk.injEq] at hs
    obtain ⟨rfl, rfl⟩ := hs
    unfold Queue.pushCm
    by_cases h2 : w.cmLen = 2
    · rw [if_pos h2]
      exact cmInv_same h ⟨rfl, rfl, rfl⟩ rfl rfl
    · rw [if_neg h2]
      obtain ⟨l, hl, he⟩ := h
      cases hl with
      | zero a =>
        rw [if_pos a]
        refine ⟨[p], .one rfl, ?_⟩
        rw [pushedCms_snoc, takenCms_snoc]
        simpa [pushedCms, takenCms] using he.append_right [p]
      | one a =>
        rw [if_neg (by omega)]
        refine ⟨[w.c0, p], .two (by simp only [a]), ?_⟩
        rw [pushedCms_snoc, takenCms_snoc]
        simpa [pushedCms, takenCms] using he.append_right [p]
      | two a => exact absurd a h2
  | pull =>
    obtain ⟨rfl, rfl⟩ := step_pull hs
    exact cmInv_same h ⟨rfl, rfl, rfl⟩ rfl rfl
  | pullCm =>
    simp only [step, Option.some.injEq, Prod.mk.injEq] at hs
    obtain ⟨rfl, rfl⟩ := hs
    unfold Queue.pullCm
    by_cases h2 : w.err ≠ none ∨ w.cmLen = 0
    · rw [if_pos h2]
      exact cmInv_same h ⟨rfl, rfl, rfl⟩ rfl rfl
    · rw [if_neg h2]
      obtain ⟨l, hl, he⟩ := h
      cases hl with
      | zero a => exact absurd (Or.inr a) h2
      | one a =>
        rw [if_pos a]
        refine ⟨[], .zero rfl, ?_⟩
        rw [pushedCms_snoc, takenCms_snoc]
        simpa [pushedCms, takenCms] using he
      | two a =>
        rw [if_neg (by omega)]
        refine ⟨[w.c0], .one (by simp only [a]), ?_⟩
        rw [pushedCms_snoc, takenCms_snoc]
        simp only [pushedCms, takenCms, List.flatMap_cons, List.flatMap_nil, List.append_nil] at he ⊢
        refine he.trans ?_
        rw [List.append_assoc]
        exact List.Perm.append_left _ (List.Perm.swap _ _ _)
  | pushCmd c =>
    simp only [step, Option.some.injEq, Prod.mk.injEq] at hs
    obtain ⟨rfl, rfl⟩ := hs
    obtain ⟨-, -, -, h1, h2, h3, -⟩ := pushCmd_fields w c
    exact cmInv_same h ⟨h1, h2, h3⟩ rfl rfl
  | pushConsumed b =>
    simp only [step, Option.some.injEq, Prod.mk.injEq] at hs
    obtain ⟨rfl, rfl⟩ := hs
    obtain ⟨-, -, -, h1, h2, h3, -⟩ := pushConsumed_fields w b
    exact cmInv_same h ⟨h1, h2, h3⟩ rfl rfl
  | pushEof =>
    simp only [step, Option.some.injEq, Prod.mk.injEq] at hs
    obtain ⟨rfl, rfl⟩ := hs
    rw [pushEof_fst]
    obtain ⟨-, -, -, h1, h2, h3, -⟩ := setEof_fields w
    exact cmInv_same h ⟨h1, h2, h3⟩ rfl rfl
  | insert cs pm =>
    obtain ⟨-, rfl, buf', n, hi⟩ := step_insert hs
    obtain ⟨-, -, -, h1, h2, h3, -⟩ := insert_fields hi
    exact cmInv_same h ⟨h1, h2, h3⟩ rfl rfl
  | fail e =>
    simp only [step, Option.some.injEq, Prod.mk.injEq] at hs
    obtain ⟨rfl, rfl⟩ := hs
    exact cmInv_same h ⟨rfl, rfl, rfl⟩ rfl rfl
  | failMain e =>
    simp only [step, Option.some.injEq, Prod.mk.injEq] at hs
    obtain ⟨rfl, rfl⟩ := hs
    exact cmInv_same h ⟨rfl, rfl, rfl⟩ rfl rfl

/-- **C28, maps.** Of the maps main gave back, the worker gets each at most once, and all but at most
two of them (not in order: the most recent first, which is harmless because their content is
overwritten). -/
theorem maps_not_lost {ops : List (Op γ)} {w : Queue γ} {log : List (Obs γ)}
    (hr : run ops (Queue.new γ) = some (w, log)) :
    ∃ l, l.length ≤ 2 ∧ (pushedCms log).Perm (takenCms log ++ l) := by
  have := run_inv (P := CmInv) cmInv_step (log := []) ⟨[], .zero rfl, List.Perm.refl _⟩ hr
  simp only [List.nil_append] at this
  obtain ⟨l, hl, he⟩ := this
  exact ⟨l, by cases hl <;> simp, he⟩

/-! ### Errors -/

/-- Invariant for errors: the queue holds the last one broadcast. -/
structure ErrInv (w : Queue γ) (log : List (Obs γ)) : Prop where
  err : w.err = (broadcasts log).getLast?
  status : ∀ e, w.status = .err e → e ∈ broadcasts log
  good : ∀ a x b, log = a ++ x :: b → ∀ e, reports x = some e → e ∈ broadcasts a

theorem broadcasts_snoc (log : List (Obs γ)) (x : Obs γ) :
    broadcasts (log ++ [x]) = broadcasts log ++ broadcasts [x] := by simp [broadcasts]

theorem errInv_add {w w' : Queue γ} {log : List (Obs γ)} {x : Obs γ} (h : ErrInv w log)
    (h1 : w'.err = w.err) (h2 : ∀ e, w'.status = .err e → w.status = .err e)
    (h3 : broadcasts [x] = [])
    (h4 : ∀ e, reports x = some e → w.err = some e ∨ w.status = .err e) : ErrInv w' (log ++ [x]) := by
  obtain ⟨a, b, c⟩ := h
  have hb : broadcasts (log ++ [x]) = broadcasts log := by rw [broadcasts_snoc, h3, List.append_nil]
  refine ⟨by rw [hb, h1, a], fun e he => by rw [hb]; exact b e (h2 e he), ?_⟩
  intro l y r hl e he
  rcases List.eq_nil_or_concat r with rfl | ⟨r', z, rfl⟩
  · have := List.append_inj' hl rfl
    obtain ⟨rfl, hx⟩ := this
    simp only [List.cons.injEq, and_true] at hx
    subst hx
    rcases h4 e he with h | h
    · rw [a] at h; exact List.mem_of_getLast? h
    · exact b e h
  · rw [List.concat_eq_append, ← List.cons_append, ← List.append_assoc] at hl
    have := List.append_inj' hl rfl
    exact c l y r' this.1 e he

theorem errInv_fail {w w' : Queue γ} {log : List (Obs γ)} {e : Nat} (h : ErrInv w log)
    (h1 : w'.err = some e) (h2 : ∀ e', w'.status = .err e' → w.status = .err e' ∨ e' = e) :
    ErrInv w' (log ++ [.fail e]) := by
  obtain ⟨a, b, c⟩ := h
  have hb : broadcasts (log ++ [Obs.fail (γ := γ) e]) = broadcasts log ++ [e] := by
    rw [broadcasts_snoc]; rfl
  refine ⟨by rw [hb, h1]; simp, fun e' he => ?_, ?_⟩
  · rw [hb]
    rcases h2 e' he with h | h
    · exact List.mem_append_left _ (b e' h)
    · rw [h]; simp
  · intro l y r hl e' he
    rcases List.eq_nil_or_concat r with rfl | ⟨r', z, rfl⟩
    · obtain ⟨rfl, hx⟩ := List.append_inj' hl rfl
      simp only [List.cons.injEq, and_true] at hx
      rw [← hx] at he
      simp [reports] at he
    · rw [List.concat_eq_append, ← List.cons_append, ← List.append_assoc] at hl
      exact c l y r' (List.append_inj' hl rfl).1 e' he

theorem pushCmd_reports (w : Queue γ) (c : Cmd γ) (e : Nat) (h : (w.pushCmd c).2.2 = .failure e) :
    w.err = some e := by
  unfold Queue.pushCmd at h
  cases herr : w.err with
  | some e' => rw [herr] at h; simpa using h
  | none =>
    rw [herr] at h
    simp only at h
    split at h
    · split at h
      · simp at h
      · split at h
        · split at h <;> simp at h
        · simp at h
    · simp at h

theorem pushConsumed_reports (w : Queue γ) (b : Range) (e : Nat)
    (h : (w.pushConsumed b).2.2 = .failure e) : w.err = some e := by
  unfold Queue.pushConsumed at h
  cases herr : w.err with
  | some e' => rw [herr] at h; simpa using h
  | none =>
    rw [herr] at h
    simp only at h
    split at h
    · simp at h
    · split at h <;> simp at h

theorem pullData_reports (w : Queue γ) (e : Nat) (h : w.pullData.2 = .err e) : w.err = some e := by
  unfold Queue.pullData at h
  cases herr : w.err with
  | some e' => rw [herr] at h; simpa using h
  | none =>
    rw [herr] at h
    simp only at h
    split at h
    · simp at h
    · simp only at h
      split at h <;> simp at h

theorem errInv_step (w : Queue γ) (log : List (Obs γ)) (o : Op γ) (w' : Queue γ) (x : Obs γ)
    (h : ErrInv w log) (hs : step w o = some (w', x)) : ErrInv w' (log ++ [x]) := by
  cases o with
  | push b =>
    simp only [step, Option.some.injEq, Prod.mk.injEq] at hs
    obtain ⟨rfl, rfl⟩ := hs
    obtain ⟨-, -, -, -, -, -, -, -, h1, h2⟩ := push_fields w b
    exact errInv_add h h2 (fun e he => by rw [← h1]; exact he) rfl (by simp [reports])
  | pullData =>
    simp only [step, Option.some.injEq, Prod.mk.injEq] at hs
    obtain ⟨rfl, rfl⟩ := hs
    obtain ⟨-, -, -, -, -, -, -, -, h1, h2⟩ := pullData_fields w
    refine errInv_add h h2 (fun e he => by rw [← h1]; exact he) rfl (fun e he => Or.inl ?_)
    apply pullData_reports
    cases hp : w.pullData.2 with
    | err e' => rw [hp] at he; simpa [reports] using he
    | data b => rw [hp] at he; simp [reports] at he
    | yield => rw [hp] at he; simp [reports] at he
    | eof => rw [hp] at he; simp [reports] at he
  | pushCm p =>
    simp only [step, Option.some.injEq, Prod.mk.injEq] at hs
    obtain ⟨rfl, rfl⟩ := hs
    obtain ⟨-, -, -, -, -, -, -, -, h1, h2⟩ := pushCm_fields w p
    exact errInv_add h h2 (fun e he => by rw [← h1]; exact he) rfl (by simp [reports])
  | pull =>
    obtain ⟨rfl, rfl⟩ := step_pull hs
    refine errInv_add h rfl (fun e he => he) rfl (fun e he => Or.inr ?_)
    cases hp : w.status with
    | err e' => rw [hp] at he; simp only [reports, Option.some.injEq] at he; rw [he]
    | ok => rw [hp] at he; simp [reports] at he
    | eof => rw [hp] at he; simp [reports] at he
  | pullCm =>
    simp only [step, Option.some.injEq, Prod.mk.injEq] at hs
    obtain ⟨rfl, rfl⟩ := hs
    obtain ⟨-, -, -, -, -, -, -, -, h1, h2⟩ := pullCm_fields w
    exact errInv_add h h2 (fun e he => by rw [← h1]; exact he) rfl (by simp [reports])
  | pushCmd c =>
    simp only [step, Option.some.injEq, Prod.mk.injEq] at hs
    obtain ⟨rfl, rfl⟩ := hs
    obtain ⟨-, -, -, -, -, -, -, -, h1, h2⟩ := pushCmd_fields w c
    refine errInv_add h h2 (fun e he => by rw [← h1]; exact he) rfl (fun e he => Or.inl ?_)
    apply pushCmd_reports w c
    cases hp : (w.pushCmd c).2.2 with
    | failure e' => rw [hp] at he; simpa [reports] using he
    | success => rw [hp] at he; simp [reports] at he
    | needsOutput => rw [hp] at he; simp [reports] at he
  | pushConsumed b =>
    simp only [step, Option.some.injEq, Prod.mk.injEq] at hs
    obtain ⟨rfl, rfl⟩ := hs
    obtain ⟨-, -, -, -, -, -, -, -, -, h1, h2⟩ := pushConsumed_fields w b
    refine errInv_add h h2 (fun e he => by rw [← h1]; exact he) rfl (fun e he => Or.inl ?_)
    apply pushConsumed_reports w b
    cases hp : (w.pushConsumed b).2.2 with
    | failure e' => rw [hp] at he; simpa [reports] using he
    | success => rw [hp] at he; simp [reports] at he
    | needsOutput => rw [hp] at he; simp [reports] at he
  | pushEof =>
    simp only [step, Option.some.injEq, Prod.mk.injEq] at hs
    obtain ⟨rfl, rfl⟩ := hs
    have hst : ∀ e, w.setEof.status = .err e → w.status = .err e := by
      intro e he
      unfold Queue.setEof at he
      split at he
      · simp at he
      · exact he
    refine errInv_add h ?_ ?_ rfl (fun e he => Or.inl ?_)
    · rw [pushEof_fst]; exact (setEof_fields w).2.2.2.2.2.2.2.2.2.2.2.1
    · rw [pushEof_fst]; exact hst
    · unfold Queue.pushEof at he
      cases herr : w.err with
      | some e' => rw [herr] at he; simpa [reports] using he
      | none => rw [herr] at he; simp [reports] at he
  | insert cs pm =>
    obtain ⟨-, rfl, buf', n, hi⟩ := step_insert hs
    obtain ⟨-, -, -, -, -, -, -, -, h1, h2, -⟩ := insert_fields hi
    exact errInv_add h h2 (fun e he => by rw [← h1]; exact he) rfl (by simp [reports])
  | fail e =>
    simp only [step, Option.some.injEq, Prod.mk.injEq] at hs
    obtain ⟨rfl, rfl⟩ := hs
    exact errInv_fail h rfl (fun e' he => by
      simp only [Queue.fail, Status.err.injEq] at he; exact Or.inr he.symm)
  | failMain e =>
    simp only [step, Option.some.injEq, Prod.mk.injEq] at hs
    obtain ⟨rfl, rfl⟩ := hs
    exact errInv_fail h rfl (fun e' he => Or.inl he)

theorem errInv_run {ops : List (Op γ)} {w : Queue γ} {log : List (Obs γ)}
    (hr : run ops (Queue.new γ) = some (w, log)) : ErrInv w log := by
  have := run_inv (P := ErrInv) errInv_step (log := [])
    ⟨rfl, by simp [Queue.new], by simp⟩ hr
  simpa using this

/-- **C28, errors, the part that holds.** Every error a call reports has been broadcast before; so if
only one error is ever broadcast, it is the one reported.  Missing: with several errors the first one is
not the one reported, see `later_error_wins`. -/
theorem reported_was_broadcast_partial {ops : List (Op γ)} {w : Queue γ} {log : List (Obs γ)}
    (hr : run ops (Queue.new γ) = some (w, log)) {a b : List (Obs γ)} {x : Obs γ}
    (hl : log = a ++ x :: b) {e : Nat} (he : reports x = some e) :
    e ∈ broadcasts a ∧ ∀ e0, broadcasts log = [e0] → e = e0 := by
  have h := (errInv_run hr).good a x b hl e he
  refine ⟨h, fun e0 h0 => ?_⟩
  have : e ∈ broadcasts log := by
    rw [hl]
    simp only [broadcasts, List.flatMap_append] at h ⊢
    exact List.mem_append_left _ h
  rw [h0] at this
  simpa using this

/-- After an error was broadcast the worker gets nothing more and can hand over nothing more: each of
its calls reports the last error broadcast. -/
theorem worker_sees_error {ops : List (Op γ)} {w : Queue γ} {log : List (Obs γ)}
    (hr : run ops (Queue.new γ) = some (w, log)) {e : Nat} (he : (broadcasts log).getLast? = some e) :
    w.pullData = (w, .err e) ∧ w.pullCm = (w, none) ∧ (∀ c, w.pushCmd c = (w, c, .failure e)) ∧
      (∀ b, w.pushConsumed b = (w, b, .failure e)) ∧ w.pushEof.2 = .failure e := by
  have h := (errInv_run hr).err
  rw [he] at h
  refine ⟨?_, ?_, ?_, ?_, ?_⟩
  · simp [Queue.pullData, h]
  · simp [Queue.pullCm, h]
  · intro c; simp [Queue.pushCmd, h]
  · intro b; simp [Queue.pushConsumed, h]
  · simp [Queue.pushEof, h]

/-- **C28, errors: false in general.** The worker broadcasts error 1, then error 2 is broadcast (main
does this when it gives up, /repo/src/parallel_decompressor.rs:142-143): the error reported is 2. -/
theorem later_error_wins :
    ∃ w, run (γ := Nat) [.fail 1, .fail 2, .pull, .pullData] (Queue.new Nat)
      = some (w, [.fail 1, .fail 2, .pull [] (.none, .none) (.empty, .empty) (.err 2),
          .pullData (.err 2)]) := by
  refine ⟨⟨0, .data .none, .data .none, 0, .empty, .empty, ⟨slots, []⟩, .none, .none, .empty, .empty, 0,
    .err 2, some 2⟩, ?_⟩
  decide +kernel

/-- With one thread an error of the main side does not reach a later `pull` of main. -/
theorem main_error_not_in_pull :
    ∃ w, run (γ := Nat) [.failMain 1, .pull, .pullData] (Queue.new Nat)
      = some (w, [.fail 1, .pull [] (.none, .none) (.empty, .empty) .ok, .pullData (.err 1)]) := by
  refine ⟨⟨0, .data .none, .data .none, 0, .empty, .empty, ⟨slots, []⟩, .none, .none, .empty, .empty, 0,
    .ok, some 1⟩, ?_⟩
  decide +kernel

/-- A history in which all kinds of calls succeed, two maps wait at once and the data queue is full. -/
example : ∃ w log, run (γ := Nat)
    [.push ⟨9, [1]⟩, .push ⟨9, [2]⟩, .push ⟨9, [3]⟩, .pullData, .push ⟨9, [3]⟩, .pushCmd (.other 5),
      .pushCmd (.pm ⟨[1], true⟩), .pushCmd (.pm ⟨[2], true⟩), .pushCmd (.pm ⟨[3], true⟩),
      .pushConsumed ⟨9, []⟩, .pull, .pushCm ⟨[1], true⟩, .pullCm, .insert [6, 7] (some ⟨[3], true⟩),
      .pullData, .pullData, .pushEof, .pull] (Queue.new Nat) = some (w, log) ∧ RealModes log ∧
      takenData log = [⟨9, [1]⟩, ⟨9, [2]⟩, ⟨9, [3]⟩] ∧
      receivedCmds log = [.other 5, .pm ⟨[1], true⟩, .pm ⟨[2], true⟩, .other 6, .other 7,
        .pm ⟨[3], true⟩] ∧ receivedBufs log = [⟨9, []⟩] := by
  refine ⟨⟨0, .eof, .eof, 0, .empty, .empty, ⟨slots, []⟩, .none, .none, .empty, .empty, 0,
    .eof, none⟩,
    [.push ⟨9, [1]⟩ true, .push ⟨9, [2]⟩ true, .push ⟨9, [3]⟩ false, .pullData (.data ⟨9, [1]⟩),
      .push ⟨9, [3]⟩ true, .pushCmd (.other 5) .success, .pushCmd (.pm ⟨[1], true⟩) .success,
      .pushCmd (.pm ⟨[2], true⟩) .success, .pushCmd (.pm ⟨[3], true⟩) .needsOutput,
      .pushConsumed ⟨9, []⟩ .success,
      .pull [.other 5, .pm, .pm] (⟨9, []⟩, .none) (⟨[1], true⟩, ⟨[2], true⟩) .ok,
      .pushCm ⟨[1], true⟩ true, .pullCm (some ⟨[1], true⟩), .insert [6, 7] (some ⟨[3], true⟩),
      .pullData (.data ⟨9, [2]⟩), .pullData (.data ⟨9, [3]⟩), .pushEof .success,
      .pull [.other 6, .other 7, .pm] (.none, .none) (⟨[3], true⟩, .empty) .eof], ?_, ?_, ?_, ?_, ?_⟩
  · decide +kernel
  · intro p hp
    simp only [sentCmds, List.flatMap_cons, List.flatMap_nil] at hp
    simp at hp
    rcases hp with rfl | rfl | rfl <;> rfl
  · decide +kernel
  · decide +kernel
  · decide +kernel

end Divans.Hand
