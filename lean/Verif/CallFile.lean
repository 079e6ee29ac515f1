import Verif.CallLemmas

/-!
# The calls of `decode`, on any bytes, are runs of the decompressor of `Verif.File`

`Verif.File` has the decompressor under any schedule.  Here: whatever bytes the calls are given, as long as no call
fails or panics there is a schedule that takes the same bytes and gives out the same bytes.  What is proved of
arbitrary schedules and arbitrary input therefore holds of the calls.
-/

namespace Divans.Mux

/-- The match of the end marker, byte by byte. -/
def markStep : Eof → UInt8 → Option Eof
  | .running, b => if b = 0xff then some .start else none
  | .start, b => if b = 0xfe then some .mid else none
  | .mid, b => if b = 0xff then some .done else none
  | .done, _ => none

/-- The same for a list. -/
def markRun : Eof → List UInt8 → Eof × Nat
  | e, [] => (e, 0)
  | e, b :: r =>
    match markStep e b with
    | none => (e, 0)
    | some e' => ((markRun e' r).1, (markRun e' r).2 + 1)

theorem markRun_len (e : Eof) (l : List UInt8) : (markRun e l).2 ≤ l.length := by
  induction l generalizing e with
  | nil => simp [markRun]
  | cons b r ih =>
    rw [markRun]
    split
    · simp
    · have := ih (by assumption)
      simp only [List.length_cons]
      omega

theorem markRun_take (e : Eof) (l : List UInt8) (j : Nat) (hj : (markRun e l).2 < j ∨ l.length ≤ j) :
    markRun e (l.take j) = markRun e l := by
  induction l generalizing e j with
  | nil => simp
  | cons b r ih =>
    obtain ⟨j, rfl⟩ : ∃ i, j = i + 1 := ⟨j - 1, by simp only [List.length_cons] at hj; omega⟩
    rw [List.take_succ_cons]
    rw [markRun] at hj
    rw [markRun, markRun]
    cases hs : markStep e b with
    | none => rfl
    | some e' =>
      rw [hs] at hj
      simp only [List.length_cons] at hj
      simp only
      rw [ih e' j (by omega)]

theorem markRun_done (l : List UInt8) : markRun .done l = (.done, 0) := by
  cases l <;> rfl

theorem deserializeEof_eq (m : Mux) (inp : List UInt8) :
    deserializeEof m inp = ({ m with eof := (markRun m.eof inp).1 }, (markRun m.eof inp).2) := by
  have mid : ∀ l : List UInt8, markRun .mid l = match l with
      | b :: _ => if b = 0xff then (Eof.done, 1) else (.mid, 0)
      | [] => (.mid, 0) := by
    intro l
    cases l with
    | nil => rfl
    | cons b r =>
      rw [markRun, markStep]
      by_cases h : b = 0xff
      · simp only [if_pos h, markRun_done]
      · simp only [if_neg h]
  have start : ∀ l : List UInt8, markRun .start l = match l with
      | b :: r => if b = 0xfe then ((markRun .mid r).1, (markRun .mid r).2 + 1) else (.start, 0)
      | [] => (.start, 0) := by
    intro l
    cases l with
    | nil => rfl
    | cons b r =>
      rw [markRun, markStep]
      by_cases h : b = 0xfe
      · simp only [if_pos h]
      · simp only [if_neg h]
  have running : ∀ l : List UInt8, markRun .running l = match l with
      | b :: r => if b = 0xff then ((markRun .start r).1, (markRun .start r).2 + 1) else (.running, 0)
      | [] => (.running, 0) := by
    intro l
    cases l with
    | nil => rfl
    | cons b r =>
      rw [markRun, markStep]
      by_cases h : b = 0xff
      · simp only [if_pos h]
      · simp only [if_neg h]
  unfold deserializeEof
  cases he : m.eof with
  | done => simp [markRun_done]
  | mid =>
    rw [mid]
    cases inp with
    | nil => simp
    | cons b r => by_cases h : b = 0xff <;> simp [h]
  | start =>
    rw [start]
    cases inp with
    | nil => simp
    | cons b r =>
      by_cases h : b = 0xfe
      · simp only [if_pos h, mid]
        cases r with
        | nil => simp
        | cons b r => by_cases h : b = 0xff <;> simp [h]; omega
      · simp [h]
  | running =>
    rw [running]
    cases inp with
    | nil => simp
    | cons b r =>
      by_cases h : b = 0xff
      · simp only [if_pos h, start]
        cases r with
        | nil => simp
        | cons b r =>
          by_cases h : b = 0xfe
          · simp only [if_pos h, mid]
            cases r with
            | nil => simp
            | cons b r => by_cases h : b = 0xff <;> simp [h] <;> omega
          · simp [h]
      · simp [h]

theorem deserializeEof_take (m : Mux) (inp : List UInt8) (j : Nat) (hj : (deserializeEof m inp).2 < j ∨ inp.length ≤ j) :
    deserializeEof m (inp.take j) = deserializeEof m inp := by
  rw [deserializeEof_eq] at hj
  rw [deserializeEof_eq, deserializeEof_eq, markRun_take _ _ _ hj]

/-- Only the bytes that are taken matter, and whether another one follows. -/
theorem deserializeAux_take : ∀ (f : Nat) (m : Mux) (inp : List UInt8) (m' : Mux) (n : Nat),
    deserializeAux f m inp = some (m', n) → ∀ j f', n < j ∨ inp.length ≤ j → 2 * (inp.take j).length + extra m.btd ≤ f' →
      deserializeAux f' m (inp.take j) = some (m', n) := by
  intro f
  induction f with
  | zero =>
    intro m inp m' n e j f' hj hf
    cases inp with
    | nil => rw [deserializeAux.eq_def] at e ⊢; simpa using e
    | cons b r => cases e
  | succ f ih =>
    intro m inp m' n e j f' hj hf
    cases inp with
    | nil => rw [deserializeAux.eq_def] at e ⊢; simpa using e
    | cons b r =>
      obtain ⟨j, rfl⟩ : ∃ i, j = i + 1 := ⟨j - 1, by simp only [List.length_cons] at hj; omega⟩
      rw [List.take_succ_cons] at hf ⊢
      simp only [List.length_cons] at hf hj
      obtain ⟨f', rfl⟩ : ∃ i, f' = i + 1 := ⟨f' - 1, by omega⟩
      have one : ∀ (m1 : Mux) (l : List UInt8) (k i : Nat), l = (b :: r).drop k → l.take i = (b :: r.take j).drop k → k ≤ j + 1 → i = j + 1 - k →
          2 * (l.take i).length + extra m1.btd ≤ f' →
          (deserializeAux f m1 l).map (fun p => (p.1, p.2 + k)) = some (m', n) →
          (deserializeAux f' m1 ((b :: r.take j).drop k)).map (fun p => (p.1, p.2 + k)) = some (m', n) := by
        intro m1 l k i hl hl2 hk hi hf' e
        cases hd : deserializeAux f m1 l with
        | none => rw [hd] at e; cases e
        | some p =>
          obtain ⟨m2, n2⟩ := p
          rw [hd] at e
          simp only [Option.map_some, Option.some.injEq, Prod.mk.injEq] at e
          obtain ⟨rfl, rfl⟩ := e
          rw [← hl2, ih m1 l m2 n2 hd i f' (by rw [hl, List.length_drop, List.length_cons]; omega) hf']
          rfl
      have tk : ∀ k, k ≤ j + 1 → ((b :: r).drop k).take (j + 1 - k) = (b :: r.take j).drop k := by
        intro k hk
        rw [← List.take_succ_cons, List.drop_take]
      have step1 : ∀ (t : Btd), extra t ≤ 1 →
          (deserializeAux f { m with btd := t } r).map (fun p => (p.1, p.2 + 1)) = some (m', n) →
          (deserializeAux f' { m with btd := t } (r.take j)).map (fun p => (p.1, p.2 + 1)) = some (m', n) := by
        intro t ht e
        exact one { m with btd := t } r 1 j rfl (tk 1 (by omega)) (by omega) (by omega) (by simp only; omega) e
      rw [deserializeAux] at e ⊢
      by_cases hd : m.eof = .done
      · rw [if_pos hd] at e ⊢
        exact e
      rw [if_neg hd] at e ⊢
      cases hbtd : m.btd with
      | hdr0 id => rw [hbtd] at e; exact step1 _ (by simp [extra]) e
      | hdr1 id lsb => rw [hbtd] at e; exact step1 _ (by simp [extra]) e
      | some id count =>
        rw [hbtd] at e hf
        simp only [extra] at e hf ⊢
        by_cases hc : count > (b :: r).length
        · rw [if_pos hc] at e
          cases hp : m.push id (b :: r) with
          | none => rw [hp] at e; cases e
          | some m1 =>
            rw [hp] at e
            simp only [Option.map_some, Option.some.injEq, Prod.mk.injEq] at e
            obtain ⟨e1, e2⟩ := e
            have hjr : r.take j = r := List.take_of_length_le (by simp only [List.length_cons] at e2; omega)
            rw [hjr, if_pos hc, hp]
            simp only [Option.map_some]
            rw [← e1, ← e2]
        · rw [if_neg hc] at e
          cases hp : m.push id ((b :: r).take count) with
          | none => rw [hp] at e; cases e
          | some m1 =>
            rw [hp] at e
            simp only at e
            have hcj : count ≤ j + 1 := by
              cases hd : deserializeAux f { m1 with btd := .none } ((b :: r).drop count) with
              | none => rw [hd] at e; cases e
              | some p =>
                rw [hd] at e
                simp only [Option.map_some, Option.some.injEq, Prod.mk.injEq] at e
                simp only [List.length_cons] at hc
                omega
            have hle : ¬ count > (b :: r.take j).length := by
              simp only [List.length_cons, List.length_take] at hc ⊢
              omega
            have htk : (b :: r.take j).take count = (b :: r).take count := by
              rw [← List.take_succ_cons, List.take_take, Nat.min_eq_left hcj]
            rw [if_neg hle, htk, hp]
            simp only
            refine one { m1 with btd := .none } _ count (j + 1 - count) rfl (tk count hcj) hcj rfl ?_ e
            rw [tk count hcj]
            simp only [extra, List.length_drop, List.length_cons]
            omega
      | none =>
        rw [hbtd] at e hf
        simp only [extra] at e hf ⊢
        by_cases hmk : b = 0xff ∨ (b = 0xfe ∧ m.eof ≠ .running)
        · rw [if_pos hmk] at e ⊢
          simp only [Option.some.injEq] at e ⊢
          have := deserializeEof_take m (b :: r) (j + 1) (by rw [e]; simp only [List.length_cons]; omega)
          rw [List.take_succ_cons] at this
          rw [this, e]
        · rw [if_neg hmk] at e ⊢
          by_cases hb : b.toNat < 16
          · rw [if_pos hb] at e ⊢
            by_cases h3 : (b :: r).length < 3
            · rw [if_pos h3] at e
              have hlt : (b :: r.take j).length < 3 := by
                simp only [List.length_cons, List.length_take] at h3 ⊢
                omega
              rw [if_pos hlt]
              exact step1 _ (by simp [extra]) e
            · rw [if_neg h3] at e
              have hj3 : 2 ≤ j := by
                revert e
                cases deserializeAux f _ (r.drop 2) with
                | none => intro e; cases e
                | some p =>
                  intro e
                  simp only [Option.map_some, Option.some.injEq, Prod.mk.injEq] at e
                  simp only [List.length_cons] at h3
                  omega
              have hge : ¬ (b :: r.take j).length < 3 := by
                simp only [List.length_cons, List.length_take] at h3 ⊢
                omega
              have g0 : (r.take j).getD 0 0 = r.getD 0 0 := by
                simp only [List.getD_eq_getElem?_getD, List.getElem?_take]
                rw [if_pos (by omega)]
              have g1 : (r.take j).getD 1 0 = r.getD 1 0 := by
                simp only [List.getD_eq_getElem?_getD, List.getElem?_take]
                rw [if_pos (by omega)]
              rw [if_neg hge, g0, g1]
              refine one _ (r.drop 2) 3 (j + 1 - 3) rfl (tk 3 (by omega)) (by omega) rfl ?_ e
              have := congrArg List.length (tk 3 (by omega))
              simp only [List.drop_succ_cons] at this
              rw [this]
              simp only [extra, List.length_drop, List.length_cons]
              omega
          · rw [if_neg hb] at e ⊢
            exact step1 _ (by simp [extra]) e

theorem deserialize_take {m m' : Mux} {inp : List UInt8} {n : Nat} (e : deserialize m inp = some (m', n)) (j : Nat)
    (hj : n < j ∨ inp.length ≤ j) : deserialize m (inp.take j) = some (m', n) := by
  refine deserializeAux_take _ m inp m' n e j _ hj ?_
  have : extra m.btd ≤ 1 := by cases m.btd <;> simp [extra]
  omega

end Divans.Mux

namespace Divans.Call
open Divans.Adaptive Divans.Pipe Divans.File

variable {dw : Nat → Nat → Nat → List UInt8} {skip : Bool}

/-! ## The worker's bytes -/

theorem pull_abs (s : St) : s.pull.abs = s.abs ∧ s.pull.b.rcv.cmdRx.dec = s.b.rcv.cmdRx.dec := by
  unfold St.pull
  by_cases hb : s.b.rcv.cmdRx.buf ≠ []
  · rw [if_pos hb]; exact ⟨rfl, rfl⟩
  rw [if_neg hb]
  rw [Decidable.not_not] at hb
  by_cases hk : s.mem ≠ [] ∧ 2 ≤ s.back.length
  · rw [if_pos hk]; exact ⟨rfl, rfl⟩
  rw [if_neg hk]
  simp only
  by_cases hm : s.mem = []
  · simp only [if_pos hm]
    cases hd : s.data with
    | nil => exact ⟨rfl, rfl⟩
    | cons d ds => exact ⟨by simp [St.abs, St.setRx, Rx.push, hd, hb], rfl⟩
  · simp only [if_neg hm]
    cases hd : s.data with
    | nil => exact ⟨by simp [St.abs, hd], rfl⟩
    | cons d ds => exact ⟨by simp [St.abs, St.setRx, Rx.push, hd, hb], rfl⟩

theorem fill_abs {s : St} (hg : s.b.rcv.cmdRx.dec.Good) :
    (∃ k, k ≤ s.abs.rcv.cmdRx.dec.numPushAvail ∧ k ≤ s.abs.rcv.cmdRx.buf.length ∧ s.fill.1.abs = moved s.abs k) ∧
      Same s s.fill.1 ∧ (s.fill.2 = true → s.fill.1.b.rcv.cmdRx.dec.numPushAvail = 0) := by
  unfold St.fill
  by_cases h0 : s.b.rcv.cmdRx.dec.numPushAvail = 0
  · rw [if_pos h0]
    refine ⟨⟨0, Nat.zero_le _, Nat.zero_le _, ?_⟩, .rfl', fun _ => h0⟩
    have hz := Fast.push_zero hg h0 []
    simp [moved, St.abs, Rx.push, hz]
  rw [if_neg h0]
  obtain ⟨p2, p3⟩ := pull_abs s
  have hsame := pull_same s
  simp only
  generalize ht : s.pull = t at *
  have hgt : t.b.rcv.cmdRx.dec.Good := by rw [p3]; exact hg
  have hc := Ans.pushData_count t.b.rcv.cmdRx.dec t.b.rcv.cmdRx.buf hgt
  have hpt := pushData_take t.b.rcv.cmdRx.dec hgt t.b.rcv.cmdRx.buf
  obtain ⟨n, hn⟩ : ∃ n, n = (t.b.rcv.cmdRx.dec.pushData t.b.rcv.cmdRx.buf).2 := ⟨_, rfl⟩
  rw [← hn] at hc hpt ⊢
  refine ⟨⟨n, ?_, ?_, ?_⟩, hsame.trans ⟨rfl, rfl, rfl, rfl, rfl, rfl, rfl, rfl, rfl, rfl, rfl, rfl⟩, ?_⟩
  · rw [← p2]
    show n ≤ t.b.rcv.cmdRx.dec.numPushAvail
    omega
  · rw [← p2]
    simp only [St.abs, Rx.push, List.length_append]
    omega
  · rw [← p2]
    have hle : n ≤ t.b.rcv.cmdRx.buf.length := by omega
    simp only [St.abs, moved, St.setRx, Rx.push, List.take_append_of_le_length hle, List.drop_append_of_le_length hle, hpt]
  · intro hf
    exact of_decide_eq_true hf

theorem moved_moved (b : File.Body) (hg : b.rcv.cmdRx.dec.Good) (k j : Nat) :
    moved (moved b k) j = moved b (k + j) := by
  have h1 : ((b.rcv.cmdRx.dec.pushData (b.rcv.cmdRx.buf.take k)).1.pushData ((b.rcv.cmdRx.buf.drop k).take j)).1 =
      (b.rcv.cmdRx.dec.pushData (b.rcv.cmdRx.buf.take (k + j))).1 := by
    rw [Ans.pushData_split _ _ _ hg, List.take_add]
  simp only [moved, h1, List.drop_drop]

/-! ## The simulation -/

/-- A decompressor of the call-level model and one of `Verif.File`: the latter has everything that is in the
queues, and perhaps not yet moved as many bytes into the worker's entropy decoder. -/
structure Sim (s : St) (b : File.Body) : Prop where
  near : s.abs = b ∨ ∃ k, k ≤ b.rcv.cmdRx.dec.numPushAvail ∧ k ≤ b.rcv.cmdRx.buf.length ∧ s.abs = moved b k
  good : b.rcv.cmdRx.dec.Good
  reqB : b.rcv.cmdRx.dec.reqB ≤ 1
  stop : s.b.rcv.core.at_ = .stop → s.hold = .none
  fin : s.sawEnd = true → s.b.rcv.core.at_ = .stop ∧ s.result = []

theorem Sim.sdec {s : St} {b : File.Body} (h : Sim s b) : s.b.rcv.cmdRx.dec.Good ∧ s.b.rcv.cmdRx.dec.reqB ≤ 1 := by
  rcases h.near with e | ⟨k, -, -, e⟩
  · have : s.abs.rcv.cmdRx.dec = b.rcv.cmdRx.dec := by rw [e]
    have h2 : s.b.rcv.cmdRx.dec = b.rcv.cmdRx.dec := this
    rw [h2]
    exact ⟨h.good, h.reqB⟩
  · have : s.abs.rcv.cmdRx.dec = (moved b k).rcv.cmdRx.dec := by rw [e]
    have h2 : s.b.rcv.cmdRx.dec = (b.rcv.cmdRx.dec.pushData (b.rcv.cmdRx.buf.take k)).1 := this
    rw [h2, Ans.pushData_reqB]
    exact ⟨Ans.pushData_good _ _ h.good, h.reqB⟩

/-- The file-level state is the call-level state, apart from the worker's bytes. -/
theorem Sim.eq {s : St} {b : File.Body} (h : Sim s b) : b = { s.abs with rcv := { s.abs.rcv with cmdRx := b.rcv.cmdRx } } := by
  rcases h.near with e | ⟨k, -, -, e⟩ <;> rw [e] <;> rfl

/-- The same parts, apart from the worker's bytes. -/
theorem Sim.parts {s : St} {b : File.Body} (h : Sim s b) : b.mux = s.b.mux ∧ b.crc = s.b.crc ∧ b.sum = s.b.sum ∧
    b.rcv.at_ = s.b.rcv.at_ ∧ b.rcv.core = s.b.rcv.core ∧ b.rcv.queue = s.b.rcv.queue ++ (s.result ++ held s.hold) := by
  rw [h.eq]
  exact ⟨rfl, rfl, rfl, rfl, rfl, rfl⟩

/-- A request for a nibble does not notice where the bytes are. -/
theorem Sim.step {s : St} {b : File.Body} (h : Sim s b) (ch : Choice Codec.Key Unit) :
    b.rcv.cmdRx.step ch = s.abs.rcv.cmdRx.step ch := by
  rcases h.near with e | ⟨k, hk, -, e⟩
  · rw [e]
  · rw [e]
    exact (step_moved b.rcv.cmdRx h.good k hk _).symm

/-- Another call-level state with the same meaning. -/
theorem Sim.congr {s t : St} {b : File.Body} (h : Sim s b) (ha : t.abs = s.abs)
    (h1 : t.b.rcv.core.at_ = .stop → t.hold = .none) (h2 : t.sawEnd = true → t.b.rcv.core.at_ = .stop ∧ t.result = []) : Sim t b :=
  ⟨by rw [ha]; exact h.near, h.good, h.reqB, h1, h2⟩

/-- Bytes are moved into the worker's entropy decoder. -/
theorem Sim.fill {s : St} {b : File.Body} (h : Sim s b) : Sim s.fill.1 b := by
  obtain ⟨⟨j, hj1, hj2, ej⟩, hs, -⟩ := fill_abs h.sdec.1
  refine ⟨?_, h.good, h.reqB, by rw [hs.core, hs.hold]; exact h.stop, by rw [hs.core, hs.result, hs.sawEnd]; exact h.fin⟩
  right
  rcases h.near with e | ⟨k, hk1, hk2, e⟩
  · rw [e] at hj1 hj2 ej
    exact ⟨j, hj1, hj2, ej⟩
  have hav : s.abs.rcv.cmdRx.dec.numPushAvail = b.rcv.cmdRx.dec.numPushAvail - k := by
    rw [e]
    show (b.rcv.cmdRx.dec.pushData (b.rcv.cmdRx.buf.take k)).1.numPushAvail = _
    rw [Ans.pushData_avail _ _ h.good, List.length_take, Nat.min_eq_left hk2]
  have hln : s.abs.rcv.cmdRx.buf.length = b.rcv.cmdRx.buf.length - k := by
    rw [e]
    show (b.rcv.cmdRx.buf.drop k).length = _
    rw [List.length_drop]
  exact ⟨k + j, by omega, by omega, by rw [ej, e, moved_moved b h.good k j]⟩

/-- A file-level run that takes no input from the caller. -/
def Goes (dw : Nat → Nat → Nat → List UInt8) (skip : Bool) (b b' : File.Body) (out : List UInt8) : Prop :=
  ∀ p : List UInt8, ∃ acts, run dw ⟨skip, .body b, p⟩ acts = .ok (⟨skip, .body b', p⟩, out) ∧ fed acts = []

theorem fed_append (a b : List File.Act) : fed (a ++ b) = fed a ++ fed b := by
  induction a with
  | nil => rfl
  | cons x a ih => cases x <;> simp [fed, ih]

theorem Goes.rfl' {b : File.Body} : Goes dw skip b b [] := fun _ => ⟨[], rfl, rfl⟩

theorem Goes.trans {b b1 b2 : File.Body} {o o' : List UInt8} (h : Goes dw skip b b1 o) (g : Goes dw skip b1 b2 o') :
    Goes dw skip b b2 (o ++ o') := by
  intro p
  obtain ⟨a, e, f⟩ := h p
  obtain ⟨a', e', f'⟩ := g p
  exact ⟨a ++ a', run_append _ _ _ _ _ _ _ e e', by rw [fed_append, f, f']; rfl⟩

theorem goes_act (a : File.Act) (ha : fed [a] = []) {b b' : File.Body} {o : List UInt8}
    (h : ∀ p, Dec.act dw ⟨skip, .body b, p⟩ a = .ok (⟨skip, .body b', p⟩, o)) : Goes dw skip b b' o := by
  intro p
  refine ⟨[a], ?_, ha⟩
  simp [File.run, h p, Codec.Res.bind]

/-- A nibble for the worker. -/
theorem Sim.nibble {s : St} {b : File.Body} (h : Sim s b) (hh : s.hold = .none) (h0 : s.b.rcv.cmdRx.dec.numPushAvail = 0)
    (hns : s.b.rcv.core.at_ ≠ .stop) {a : Codec.Ask} (ha : Codec.coreAsk s.b.rcv.core = some a) {c' : Codec.Core}
    {o : Option Codec.Got}
    (ht : Codec.coreTake s.b.rcv.core (take s.b.rcv.cmdRx (.plain a.key (some a.speed))).2 = .ok (c', o)) :
    ∃ b', Goes dw skip b b' [] ∧ Sim (nibbled s (take s.b.rcv.cmdRx (.plain a.key (some a.speed))).1 c' o) b' := by
  obtain ⟨-, -, -, -, hcore, hq⟩ := h.parts
  rw [hh, held, List.append_nil] at hq
  have hst : s.abs.rcv.cmdRx.step (.plain a.key (some a.speed)) =
      ((take s.b.rcv.cmdRx (.plain a.key (some a.speed))).1.push (s.data.flatMap Mux.Buf.unread),
        some (take s.b.rcv.cmdRx (.plain a.key (some a.speed))).2) := step_take (r := s.abs.rcv.cmdRx) h.sdec.1 h0 _
  have hmv := h.step (.plain a.key (some a.speed))
  rw [hst] at hmv
  refine ⟨(nibbled s (take s.b.rcv.cmdRx (.plain a.key (some a.speed))).1 c' o).abs, goes_act .worker rfl fun p => ?_, ?_⟩
  · have hw : b.rcv.worker = .ok { b.rcv with
        cmdRx := (take s.b.rcv.cmdRx (.plain a.key (some a.speed))).1.push (s.data.flatMap Mux.Buf.unread)
        core := c', queue := b.rcv.queue ++ o.toList.filter forwarded } := by
      rw [Rcv.worker, hcore, if_neg hns, ha]
      simp only [hmv, ht, Codec.Res.bind]
    simp only [File.Dec.act, hw, Codec.Res.bind]
    have : ({ b with rcv := { b.rcv with
        cmdRx := (take s.b.rcv.cmdRx (.plain a.key (some a.speed))).1.push (s.data.flatMap Mux.Buf.unread)
        core := c', queue := b.rcv.queue ++ o.toList.filter forwarded } } : File.Body) =
        (nibbled s (take s.b.rcv.cmdRx (.plain a.key (some a.speed))).1 c' o).abs := by
      rw [hq, h.eq]
      simp only [nibbled, St.abs, held_holdFor, List.append_assoc]
    rw [this]
  · have hg := advance_good (d := s.b.rcv.cmdRx.dec) h.sdec.2
      ((s.b.rcv.cmdRx.ses.coding (.plain a.key (some a.speed))).lookup s.b.rcv.cmdRx.dec.offset).2.toSlot
    refine ⟨Or.inl rfl, hg.1, hg.2, ?_, ?_⟩
    · intro hs
      cases o with
      | none => rfl
      | some g =>
        have : c'.at_ = .begin := (coreTake_some ht).1
        have hs' : c'.at_ = .stop := hs
        rw [this] at hs'
        cases hs'
    · intro hs
      exact absurd (h.fin hs).1 hns

/-- A step of the worker. -/
theorem Sim.work {s s' : St} {b : File.Body} {p : Option Pause} (h : Sim s b) (e : s.work = .ok (s', p)) :
    ∃ b', Goes dw skip b b' [] ∧ Sim s' b' := by
  unfold St.work at e
  cases hh : s.hold with
  | ready g =>
    rw [hh] at e
    simp only at e
    have hns : s.b.rcv.core.at_ ≠ .stop := fun h0 => by have := h.stop h0; rw [hh] at this; cases this
    by_cases hc : s.result.length < 256 ∧ (isPm g → (s.result.filter isPm).length < 2)
    · rw [if_pos hc] at e
      cases e
      refine ⟨b, .rfl', h.congr ?_ (fun _ => rfl) fun h0 => absurd (h.fin h0).1 hns⟩
      simp [St.abs, hh, held]
    · rw [if_neg hc] at e
      cases e
      exact ⟨b, .rfl', h⟩
  | decoded g =>
    rw [hh] at e
    simp only at e
    have hns : s.b.rcv.core.at_ ≠ .stop := fun h0 => by have := h.stop h0; rw [hh] at this; cases this
    obtain ⟨-, hs, -⟩ := fill_abs h.sdec.1
    by_cases hf : s.fill.2 = true
    · rw [if_pos hf] at e
      cases e
      refine ⟨b, .rfl', h.fill.congr ?_ (fun h0 => ?_) fun h0 => h.fill.fin h0⟩
      · simp [St.abs, hs.hold, hh, held]
      · have h0' : s.fill.1.b.rcv.core.at_ = .stop := h0
        rw [hs.core] at h0'
        exact absurd h0' hns
    · rw [if_neg hf] at e
      cases e
      exact ⟨b, .rfl', h.fill⟩
  | none =>
    rw [hh] at e
    simp only at e
    by_cases hstop : s.b.rcv.core.at_ = .stop
    · rw [if_pos hstop] at e
      cases e
      exact ⟨b, .rfl', h⟩
    rw [if_neg hstop] at e
    by_cases hpm : (inPm s.b.rcv.core.at_ && !s.map) = true
    · rw [if_pos hpm] at e
      by_cases hm : s.maps = 0
      · rw [if_pos hm] at e
        cases e
        exact ⟨b, .rfl', h⟩
      · rw [if_neg hm] at e
        cases e
        exact ⟨b, .rfl', h.congr (by simp [St.abs, hh]) (fun _ => rfl) h.fin⟩
    rw [if_neg hpm] at e
    obtain ⟨-, hs, h0⟩ := fill_abs h.sdec.1
    by_cases hf : s.fill.2 = true
    · rw [if_pos hf] at e
      have hns' : s.fill.1.b.rcv.core.at_ ≠ .stop := by rw [hs.core]; exact hstop
      cases ha : Codec.coreAsk s.fill.1.b.rcv.core with
      | none => rw [ha] at e; cases e
      | some a =>
        rw [ha] at e
        simp only at e
        cases ht : Codec.coreTake s.fill.1.b.rcv.core (take s.fill.1.b.rcv.cmdRx (.plain a.key (some a.speed))).2 with
        | fail => rw [ht] at e; cases e
        | panic => rw [ht] at e; cases e
        | ok y =>
          obtain ⟨c', o⟩ := y
          rw [ht] at e
          cases e
          exact h.fill.nibble (by rw [hs.hold]; exact hh) (h0 hf) hns' ha ht
    · rw [if_neg hf] at e
      cases e
      exact ⟨b, .rfl', h.fill⟩

/-- Handing over a buffer. -/
theorem Sim.push {s t : St} {b : File.Body} (h : Sim s b) (hp : s.push = some t) :
    ∃ b', Goes dw skip b b' [] ∧ Sim t b' := by
  unfold St.push at hp
  by_cases hc : s.data.length < 2 ∧ s.b.mux.unread false ≠ []
  · rw [if_pos hc] at hp
    cases hp
    obtain ⟨hmux, -⟩ := h.parts
    refine ⟨b.hand, goes_act .hand rfl fun p => rfl, ?_⟩
    have hne : ¬ b.mux.unread false = [] := by rw [hmux]; exact hc.2
    have hb : b.hand = { b with mux := (b.mux.takeBuf false).1
                                rcv := { b.rcv with cmdRx := b.rcv.cmdRx.push (b.mux.takeBuf false).2.unread } } := by
      rw [Body.hand, if_neg hne]
    refine ⟨?_, ?_, ?_, h.stop, h.fin⟩
    · rw [hb, hmux]
      rcases h.near with e | ⟨k, hk1, hk2, e⟩
      · left
        rw [← e]
        simp [St.abs, Rx.push]
      · right
        refine ⟨k, hk1, by simp only [Rx.push, List.length_append]; omega, ?_⟩
        have := congrArg (fun b : File.Body => ({ b with mux := (s.b.mux.takeBuf false).1, rcv := { b.rcv with cmdRx := b.rcv.cmdRx.push (s.b.mux.takeBuf false).2.unread } } : File.Body)) e
        simp only [moved, Rx.push] at this ⊢
        rw [List.take_append_of_le_length hk2, List.drop_append_of_le_length hk2, ← this]
        simp [St.abs, Rx.push]
    · rw [hb]; exact h.good
    · rw [hb]; exact h.reqB
  · rw [if_neg hc] at hp; cases hp

/-- A change of the demultiplexer, the checksum or the trailer. -/
theorem Sim.swap {s : St} {b : File.Body} (h : Sim s b) (m : Mux.Mux) (c : Nat) (u : List UInt8) :
    Sim { s with b := { s.b with mux := m, crc := c, sum := u } } { b with mux := m, crc := c, sum := u } := by
  refine ⟨?_, h.good, h.reqB, h.stop, h.fin⟩
  rcases h.near with e | ⟨k, hk1, hk2, e⟩
  · left
    rw [← e]
    rfl
  · right
    refine ⟨k, hk1, hk2, ?_⟩
    have := congrArg (fun b : File.Body => ({ b with mux := m, crc := c, sum := u } : File.Body)) e
    exact this

theorem Sim.recycle {s : St} {b : File.Body} (h : Sim s b) (m : List UInt8) :
    ∃ b', Goes dw skip b b' [] ∧ Sim { s with b := { s.b with mux := s.b.mux.recycle false m } } b' := by
  obtain ⟨h1, h2, h3, -⟩ := h.parts
  refine ⟨{ b with mux := b.mux.recycle false m }, goes_act (.recycle m) rfl fun p => rfl, ?_⟩
  have e : ({ b with mux := b.mux.recycle false m } : File.Body) =
      { b with mux := s.b.mux.recycle false m, crc := s.b.crc, sum := s.b.sum } := by rw [h1, ← h2, ← h3]
  rw [e]
  exact h.swap (s.b.mux.recycle false m) s.b.crc s.b.sum

/-- A step of the main side. -/
theorem Sim.main {s : St} {b : File.Body} (h : Sim s b) (room : Nat)
    (hor : s.b.rcv.at_ ≠ .idle ∨ s.b.rcv.queue ≠ [] ∨ s.result ++ held s.hold = []) {x : File.Body} {o : List UInt8}
    (e : s.b.main dw room = .ok (x, o)) : ∃ b', Goes dw skip b b' o ∧ Sim { s with b := x } b' := by
  have h1 := body_main_ext (dw := dw) s room hor
  rw [e] at h1
  simp only [Codec.Res.bind] at h1
  have hf : ∀ (y y' : File.Body) (o' : List UInt8), y.main dw room = .ok (y', o') → y'.rcv.cmdRx = y.rcv.cmdRx ∧ y'.rcv.core = y.rcv.core := by
    intro y y' o' hy
    unfold Body.main at hy
    cases hm : Rcv.main dw { y.rcv with litRx := { y.rcv.litRx with buf := y.mux.unread true } } room with
    | ok z =>
      simp only [hm, Codec.Res.bind, Codec.Res.ok.injEq, Prod.mk.injEq] at hy
      have := main_frame hm
      rw [← hy.1]
      exact ⟨this.1, this.2.1⟩
    | fail => simp only [hm, Codec.Res.bind] at hy; cases hy
    | panic => simp only [hm, Codec.Res.bind] at hy; cases hy
  have hx : ∀ (y : File.Body) (rx : Rx Codec.Key Unit), Body.main dw { y with rcv := { y.rcv with cmdRx := rx } } room =
      (y.main dw room).bind fun z => .ok ({ z.1 with rcv := { z.1.rcv with cmdRx := rx } }, z.2) := by
    intro y rx
    have e := main_ext (dw := dw) { y.rcv with litRx := { y.rcv.litRx with buf := y.mux.unread true } } rx [] room (Or.inr (Or.inr rfl))
    simp only [List.append_nil] at e
    unfold Body.main
    simp only
    rw [e]
    cases Rcv.main dw { y.rcv with litRx := { y.rcv.litRx with buf := y.mux.unread true } } room <;> rfl
  obtain ⟨f1, f2⟩ := hf _ _ _ e
  have hb : b.main dw room = .ok ({ ({ s with b := x } : St).abs with
      rcv := { ({ s with b := x } : St).abs.rcv with cmdRx := b.rcv.cmdRx } }, o) := by
    have := hx s.abs b.rcv.cmdRx
    rw [← h.eq, h1] at this
    exact this
  refine ⟨⟨x.mux, x.crc, x.sum, { ({ s with b := x } : St).abs.rcv with cmdRx := b.rcv.cmdRx }⟩,
    goes_act (.main room) rfl fun p => ?_, ?_⟩
  · simp only [File.Dec.act, hb, Codec.Res.bind]
    rfl
  · refine ⟨?_, h.good, h.reqB, by simp only [f2]; exact h.stop, by simp only [f2]; exact h.fin⟩
    have hrx : ({ s with b := x } : St).abs.rcv.cmdRx = s.abs.rcv.cmdRx := by simp only [St.abs, f1]
    rcases h.near with e | ⟨k, hk1, hk2, e⟩
    · left
      rw [← e, ← hrx]
      rfl
    · right
      refine ⟨k, hk1, hk2, ?_⟩
      have : s.abs.rcv.cmdRx = (moved b k).rcv.cmdRx := by rw [e]
      rw [this] at hrx
      simp only [moved] at hrx ⊢
      rw [← hrx]
      rfl

end Divans.Call
