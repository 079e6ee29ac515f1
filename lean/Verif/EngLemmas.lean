import Verif.Eng
import Verif.FileProps
import Mathlib.Tactic.SplitIfs

/-!
# The compressing codec: invariants

The state of the codec is described by the history of what it did to its entropy coders and to the
container: `Coded` and `Wr`.
-/

namespace Divans.Ans

theorem Enc.run_append : ∀ (a b : List EncOp) (e : Enc),
    e.run (a ++ b) = (e.run a).bind fun x => (x.2.run b).map fun y => (x.1 ++ y.1, y.2) := by
  intro a
  induction a with
  | nil => intro b e; simp [Enc.run]
  | cons op a ih =>
    intro b e
    cases op with
    | put sl =>
      simp only [List.cons_append, Enc.run]
      split_ifs
      · cases e.put sl with
        | none => rfl
        | some e' => simp only [Option.bind_some, ih]
      · rfl
    | close =>
      simp only [List.cons_append, Enc.run]
      split_ifs
      · cases e.flushChunk with
        | none => rfl
        | some e' => simp only [Option.bind_some, ih]
      · rfl
    | pop n =>
      simp only [List.cons_append, Enc.run, ih]
      cases (e.pop n).2.run a with
      | none => rfl
      | some x =>
        simp only [Option.bind_some, Option.map_some]
        cases x.2.run b with
        | none => rfl
        | some y => simp

theorem putsOf_append : ∀ a b : List EncOp, putsOf (a ++ b) = putsOf a ++ putsOf b := by
  intro a
  induction a with
  | nil => intro b; rfl
  | cons op a ih => intro b; cases op <;> simp [putsOf, ih]

/-- No `close` yet. -/
def Open (ops : List EncOp) : Prop := ∀ op ∈ ops, op ≠ .close

theorem closedOnce_close {ops : List EncOp} (h : Open ops) : ClosedOnce (ops ++ [.close]) := by
  induction ops with
  | nil => simp [ClosedOnce]
  | cons op ops ih =>
    have := ih fun x hx => h x (by simp [hx])
    cases op with
    | put sl => exact this
    | pop n => exact this
    | close => exact absurd rfl (h .close (by simp))

theorem closedOnce_pop {ops : List EncOp} (h : ClosedOnce ops) (n : Nat) : ClosedOnce (ops ++ [.pop n]) := by
  induction ops with
  | nil => exact h.elim
  | cons op ops ih =>
    cases op with
    | put sl => exact ih h
    | pop m => exact ih h
    | close =>
      intro x hx
      rcases List.mem_append.1 hx with hx | hx
      · exact h x hx
      · exact ⟨n, by simpa using hx⟩

/-- The entropy coder after the nibbles `sls` were put and the bytes `popped` taken; `c` says whether it
was closed. -/
structure Coded (c : Bool) (e : Enc) (sls : List Slot) (popped : List UInt8) : Prop where
  hist : ∃ ops, putsOf ops = sls ∧ (if c = true then ClosedOnce ops else Open ops) ∧
    Enc.init.run ops = some (popped, e)
  len : e.startFreq.length < symbolsPerChunk
  val : ∀ sl ∈ e.startFreq, sl.Valid

theorem coded_init : Coded false .init [] [] :=
  ⟨⟨[], rfl, by simp [Open], rfl⟩, by simp [Enc.init, symbolsPerChunk, maxBufferSize], by simp [Enc.init]⟩

theorem Coded.pop {c : Bool} {e : Enc} {sls : List Slot} {popped : List UInt8} (h : Coded c e sls popped)
    (n : Nat) : Coded c (e.pop n).2 sls (popped ++ (e.pop n).1) := by
  obtain ⟨⟨ops, h1, h2, h3⟩, h4, h5⟩ := h
  refine ⟨⟨ops ++ [.pop n], ?_, ?_, ?_⟩, h4, h5⟩
  · rw [putsOf_append, h1]; simp [putsOf]
  · cases c with
    | true => exact closedOnce_pop h2 n
    | false =>
      intro x hx
      rcases List.mem_append.1 hx with hx | hx
      · exact h2 x hx
      · simp only [List.mem_singleton] at hx; subst hx; simp
  · rw [Enc.run_append, h3]
    simp [Enc.run]

theorem Coded.put {e : Enc} {sls : List Slot} {popped : List UInt8} (h : Coded false e sls popped)
    (hq : e.q = []) {sl : Slot} (hv : sl.Valid) :
    ∃ e', e.put sl = some e' ∧ Coded false e' (sls ++ [sl]) popped := by
  obtain ⟨⟨ops, h1, h2, h3⟩, h4, h5⟩ := h
  obtain ⟨⟨e', g1, -, g2, g3⟩, -⟩ := run_never_fails e h4 h5 hq sl hv
  refine ⟨e', g1, ⟨ops ++ [.put sl], ?_, ?_, ?_⟩, g2, g3⟩
  · rw [putsOf_append, h1]; simp [putsOf]
  · intro x hx
    rcases List.mem_append.1 hx with hx | hx
    · exact h2 x hx
    · simp only [List.mem_singleton] at hx; subst hx; simp
  · rw [Enc.run_append, h3]
    simp [Enc.run, hq, g1]

theorem Coded.close {e : Enc} {sls : List Slot} {popped : List UInt8} (h : Coded false e sls popped)
    (hq : e.q = []) : ∃ e', e.flushChunk = some e' ∧ Coded true e' sls popped := by
  obtain ⟨⟨ops, h1, h2, h3⟩, h4, h5⟩ := h
  obtain ⟨-, e', g1, -, g2⟩ := run_never_fails e h4 h5 hq ⟨0, 1⟩ (by simp [Slot.Valid])
  refine ⟨e', g1, ⟨ops ++ [.close], ?_, ?_, ?_⟩, by rw [g2]; simp [symbolsPerChunk, maxBufferSize], by simp [g2]⟩
  · rw [putsOf_append, h1]; simp [putsOf]
  · exact closedOnce_close h2
  · rw [Enc.run_append, h3]
    simp [Enc.run, hq, g1]

end Divans.Ans

namespace Divans.Frame

theorem crun_append : ∀ (a b : List COp) (c : Cmp),
    crun c (a ++ b) = (crun c a).bind fun x => (crun x.1 b).map fun y => (y.1, x.2 ++ y.2) := by
  intro a
  induction a with
  | nil => intro b c; simp [crun]
  | cons op a ih =>
    intro b c
    simp only [List.cons_append, crun, ih]
    cases op.run c with
    | none => rfl
    | some x =>
      simp only [Option.bind_some]
      cases crun x.1 a with
      | none => rfl
      | some y =>
        simp only [Option.map_some, Option.bind_some]
        cases crun y.1 b with
        | none => rfl
        | some z => simp

theorem clegal_snoc {a : List COp} {c : Cmp} {c' : Cmp} {out : List UInt8} {op : COp}
    (h : clegal c a = true) (hr : crun c a = some (c', out)) (ha : op.allowed c' = true) :
    clegal c (a ++ [op]) = true := by
  induction a generalizing c out with
  | nil =>
    simp only [crun, Option.some.injEq, Prod.mk.injEq] at hr
    obtain ⟨rfl, rfl⟩ := hr
    rw [List.nil_append, clegal, ha, Bool.true_and]
    cases op.run c <;> rfl
  | cons x a ih =>
    rw [clegal, Bool.and_eq_true] at h
    rw [List.cons_append, clegal, Bool.and_eq_true]
    refine ⟨h.1, ?_⟩
    have h2 := h.2
    rw [crun] at hr
    cases hx : x.run c with
    | none => rfl
    | some y =>
      rw [hx] at hr h2
      simp only [Option.bind_some, Option.map_eq_some_iff] at hr
      obtain ⟨z, hz, he⟩ := hr
      obtain ⟨rfl, -⟩ := Prod.mk.injEq .. ▸ he
      exact ih h2 hz

theorem coded_append (i : Bool) : ∀ a b : List COp, coded i (a ++ b) = coded i a ++ coded i b := by
  intro a
  induction a with
  | nil => intro b; rfl
  | cons op a ih => intro b; cases op <;> simp [coded, ih]

/-- The container after a legal history that wrote `out` and took the bytes `popped` from the coders. -/
def Wr (w : UInt8) (c : Cmp) (out : List UInt8) (popped : Bool → List UInt8) : Prop :=
  ∃ ops, clegal (.new w) ops = true ∧ crun (.new w) ops = some (c, out) ∧ ∀ i, coded i ops = popped i

theorem wr_new (w : UInt8) : Wr w (.new w) [] (fun _ => []) := ⟨[], rfl, rfl, fun _ => rfl⟩

theorem Wr.step {w : UInt8} {c c' : Cmp} {out o : List UInt8} {popped : Bool → List UInt8}
    (h : Wr w c out popped) {op : COp} (ha : op.allowed c = true) (hr : op.run c = some (c', o)) :
    Wr w c' (out ++ o) (fun i => popped i ++ coded i [op]) := by
  obtain ⟨ops, h1, h2, h3⟩ := h
  refine ⟨ops ++ [op], clegal_snoc h1 h2 ha, ?_, ?_⟩
  · rw [crun_append, h2]
    simp [crun, hr]
  · intro i
    rw [coded_append, h3]

theorem Wr.inv {w : UInt8} {c : Cmp} {out : List UInt8} {popped : Bool → List UInt8}
    (h : Wr w c out popped) : ∃ B, CInv c popped B out := by
  obtain ⟨ops, h1, h2, h3⟩ := h
  obtain ⟨c', out', B', e, hinv, -⟩ := crun_spec ops (cinv_new w) h1
  rw [h2] at e
  cases e
  refine ⟨B', ?_⟩
  have : popped = fun i => ([] : List UInt8) ++ coded i ops := by funext i; simp [h3]
  rw [this]
  simpa using hinv

end Divans.Frame

namespace Divans.Eng
open Divans.Adaptive Divans.Pipe Divans.Frame Divans.Ans

/-- The codec while commands are coded: `sl` are the nibbles put so far. -/
structure Mid (w : UInt8) (e : Eng) (out : List UInt8) (sl : Bool → List Slot) (cl : Bool → Bool) : Prop where
  hist : ∃ popped, Wr w e.cmp out popped ∧ ∀ i, Coded (cl i) (e.enc i) (sl i) (popped i)
  stage : e.cmp.stage = .code
  eof : e.cmp.mux.eof ≠ .done

/-- Everything but container and coders is the same. -/
def Same (e e' : Eng) : Prop := e' = { e with cmp := e'.cmp, enc := e'.enc }

theorem Same.refl (e : Eng) : Same e e := rfl

theorem Same.trans {a b c : Eng} (h1 : Same a b) (h2 : Same b c) : Same a c := by
  unfold Same at *
  rw [h2, h1]

theorem space_spec {m : Mux.Mux} (hm : Mux.Inv m) (i : Bool) : ∃ n, space m i = some n ∧ 16 ≤ n ∧
    ∀ data : List UInt8, data.length ≤ n → (m.fill i data).isSome = true := by
  obtain ⟨b0, e0, hok0, -, hr0, -⟩ := Mux.prepPush_spec (hm.ok false) 16
  obtain ⟨b1, e1, hok1, -, hr1, -⟩ := Mux.prepPush_spec (hm.ok true) 16
  cases i with
  | false =>
    refine ⟨_, by rw [space, e0, Option.map_some], hr0, ?_⟩
    intro data hd
    obtain ⟨mem, e2, -⟩ := Mux.store_spec hok0 hd
    simp [Mux.Mux.fill, e0, e1, e2]
  | true =>
    refine ⟨_, by rw [space, e1, Option.map_some], hr1, ?_⟩
    intro data hd
    obtain ⟨mem, e2, -⟩ := Mux.store_spec hok1 hd
    simp [Mux.Mux.fill, e0, e1, e2]

theorem fill_eof {m m' : Mux.Mux} {i : Bool} {data : List UInt8} (h : m.fill i data = some m') :
    m'.eof = m.eof := by
  simp only [Mux.Mux.fill, Option.bind_eq_bind, Option.bind_eq_some_iff, Option.some.injEq] at h
  obtain ⟨_, _, _, _, _, _, rfl⟩ := h
  rfl

theorem not_eof {m : Mux.Mux} (h : m.eof ≠ .done) : m.isEof = false := by
  simp [Mux.Mux.isEof, h]

/-- One round of emptying a coder. -/
theorem round_spec {w : UInt8} {e : Eng} {out : List UInt8} {sl : Bool → List Slot} {cl : Bool → Bool}
    (h : Mid w e out sl cl) (hp : e.cmp.progress = 16) (i : Bool) (room : Nat) :
    ∃ c1 o n c2, e.cmp.code (.serialize room) = some (c1, o) ∧ space c1.mux i = some n ∧ 16 ≤ n ∧
      c1.code (.fill i ((e.enc i).pop n).1) = some (c2, []) ∧ o.length ≤ room ∧ c2.progress = 16 ∧
      Mid w { e with cmp := c2, enc := Mux.upd e.enc i ((e.enc i).pop n).2 } (out ++ o) sl cl := by
  obtain ⟨⟨popped, hw, hc⟩, hst, heof⟩ := h
  obtain ⟨B, hinv⟩ := hw.inv
  obtain ⟨m1, o, e1, htr⟩ := Mux.serialize_spec hinv.minv room
  have hal1 : (COp.code (.serialize room)).allowed e.cmp = true := by
    simp [COp.allowed, hp, hst, Mux.MOp.allowed]
  have hrun1 : e.cmp.code (.serialize room) =
      some ({ e.cmp with mux := m1, crc := Crc.update e.cmp.crc o }, o) := by
    simp only [Cmp.code, Mux.MOp.run, e1, Option.map_some]
  have hw1 := hw.step hal1 hrun1
  obtain ⟨n, hn, h16, hfit⟩ := space_spec htr.inv i
  obtain ⟨m2, e2⟩ := Option.isSome_iff_exists.1 (hfit ((e.enc i).pop n).1 (by simp [Enc.pop]))
  have heof1 : m1.eof ≠ .done := by rw [htr.eof]; exact heof
  have hal2 : (COp.code (.fill i ((e.enc i).pop n).1)).allowed
      { e.cmp with mux := m1, crc := Crc.update e.cmp.crc o } = true := by
    simp [COp.allowed, hp, hst, Mux.MOp.allowed, e2, not_eof heof1]
  have hrun2 : Cmp.code { e.cmp with mux := m1, crc := Crc.update e.cmp.crc o } (.fill i ((e.enc i).pop n).1) =
      some ({ e.cmp with mux := m2, crc := Crc.update (Crc.update e.cmp.crc o) [] }, []) := by
    simp only [Cmp.code, Mux.MOp.run, e2, Option.map_some]
  have hw2 := hw1.step hal2 hrun2
  refine ⟨_, o, n, _, hrun1, hn, h16, hrun2, htr.len, hp, ⟨fun j => popped j ++
    coded j [.code (.serialize room)] ++ coded j [.code (.fill i ((e.enc i).pop n).1)], ?_, ?_⟩, hst, ?_⟩
  · simpa using hw2
  · intro j
    by_cases hj : j = i
    · subst hj
      simp only [Mux.upd_same, coded, Mux.MOp.data, List.append_nil, if_true]
      exact (hc j).pop n
    · simp only [Mux.upd_ne _ _ hj, coded, Mux.MOp.data, List.append_nil, if_neg hj]
      exact hc j
  · simp only
    rw [fill_eof e2]
    exact heof1

theorem drain_spec (i : Bool) : ∀ (fuel : Nat) {w : UInt8} {e : Eng} {out : List UInt8}
    {sl : Bool → List Slot} {cl : Bool → Bool} (room : Nat), Mid w e out sl cl → e.cmp.progress = 16 →
    (e.enc i).q.length < fuel →
    ∃ e' o ok, drain i fuel e room = some (e', o, ok) ∧ Mid w e' (out ++ o) sl cl ∧
      e'.cmp.progress = 16 ∧ o.length ≤ room ∧ (ok = true ↔ (e'.enc i).q = []) ∧
      (ok = false → o.length = room) ∧ ((e.enc i).q ≠ [] → (e'.enc i).q.length < (e.enc i).q.length) ∧
      (∀ j, j ≠ i → e'.enc j = e.enc j) ∧ ((e.enc i).q = [] → e' = e ∧ o = []) ∧ Same e e' ∧
      (e'.enc i).startFreq = (e.enc i).startFreq := by
  intro fuel
  induction fuel with
  | zero => intro w e out sl cl room _ _ h; omega
  | succ fuel ih =>
    intro w e out sl cl room h hp hf
    rw [drain]
    by_cases hq : (e.enc i).q = []
    · rw [if_pos hq]
      exact ⟨e, [], true, rfl, by simpa using h, hp, Nat.zero_le _, by simp [hq], by simp,
        fun hne => absurd hq hne, fun _ _ => rfl, fun _ => ⟨rfl, rfl⟩, .refl e, rfl⟩
    rw [if_neg hq]
    obtain ⟨c1, o, n, c2, r1, r2, h16, r3, hl, hp2, hm⟩ := round_spec h hp i room
    simp only [r1, r2, r3, Mux.upd_same]
    have hqd : ((e.enc i).pop n).2.q = (e.enc i).q.drop n := rfl
    have hsf : ((e.enc i).pop n).2.startFreq = (e.enc i).startFreq := rfl
    have hpos : 0 < (e.enc i).q.length := List.length_pos_iff.2 hq
    have hlt : ((e.enc i).q.drop n).length < (e.enc i).q.length := by
      rw [List.length_drop]; omega
    by_cases hq2 : (e.enc i).q.drop n = []
    · rw [hqd, if_pos hq2]
      refine ⟨_, o, true, rfl, hm, hp2, hl, ?_, by simp, fun _ => ?_, fun j hj => ?_, fun hh => absurd hh hq, rfl, ?_⟩
      · simp [hqd, hq2]
      · simp only [Mux.upd_same, hqd]; exact hlt
      · simp only [Mux.upd_ne _ _ hj]
      · simp only [Mux.upd_same]; exact hsf
    · rw [hqd, if_neg hq2]
      by_cases hfull : o.length = room
      · rw [if_pos hfull]
        refine ⟨_, o, false, rfl, hm, hp2, hl, ?_, fun _ => hfull, fun _ => ?_, fun j hj => ?_,
          fun hh => absurd hh hq, rfl, ?_⟩
        · simp [hqd, hq2]
        · simp only [Mux.upd_same, hqd]; exact hlt
        · simp only [Mux.upd_ne _ _ hj]
        · simp only [Mux.upd_same]; exact hsf
      · rw [if_neg hfull]
        obtain ⟨e', o2, ok, g1, g2, g3, g4, g5, g6, g7, g8, -, g9, g10⟩ := ih (room - o.length) hm hp2
          (by simp only [Mux.upd_same, hqd]; omega)
        simp only [Mux.upd_same, hqd] at g7
        refine ⟨e', o ++ o2, ok, by rw [g1]; rfl, by rw [← List.append_assoc]; exact g2, g3, ?_, g5, ?_, fun _ => ?_,
          fun j hj => ?_, fun hh => absurd hh hq, ?_, ?_⟩
        · rw [List.length_append]; omega
        · intro hk; rw [List.length_append, g6 hk]; omega
        · have := g7 hq2; omega
        · rw [g8 j hj]; simp only [Mux.upd_ne _ _ hj]
        · exact Same.trans (b := { e with cmp := c2, enc := Mux.upd e.enc i ((e.enc i).pop n).2 }) rfl g9
        · rw [g10]; simp only [Mux.upd_same]; exact hsf

/-- The nibbles put into coder `i` by some steps. -/
def putsIn (i : Bool) : List Micro → List Slot
  | [] => []
  | .put j sl :: r => if j = i then sl :: putsIn i r else putsIn i r
  | _ :: r => putsIn i r

/-- Steps that never put a nibble into a coder with output, from knowledge `k` of empty coders and `c` of
closed coders; with `fin` both coders are closed and empty in the end. -/
def wf (fin : Bool) : (Bool → Bool) → (Bool → Bool) → List Micro → Bool
  | k, c, [] => !fin || (k false && k true && c false && c true)
  | k, c, .need i :: r => wf fin (Mux.upd k i true) c r
  | k, c, .attempt _ :: r => wf fin k c r
  | k, c, .put i _ :: r => k i && !c i && wf fin (Mux.upd k i false) c r
  | k, c, .close i :: r => k i && !c i && wf fin (Mux.upd k i false) (Mux.upd c i true) r

/-- The coders `k` are empty. -/
def Sound (k : Bool → Bool) (e : Eng) : Prop := ∀ i, k i = true → (e.enc i).q = []

/-- Bytes in the coders. -/
def Eng.pending (e : Eng) : Nat := (e.enc false).q.length + (e.enc true).q.length

/-- Steps that can be taken. -/
structure Ready (fin : Bool) (e : Eng) (cl : Bool → Bool) (r : List Micro) : Prop where
  ok : ∃ k, Sound k e ∧ wf fin k cl r = true
  val : ∀ i s, Micro.put i s ∈ r → s.Valid

theorem mid_upd {w : UInt8} {e : Eng} {out : List UInt8} {sl : Bool → List Slot} {cl : Bool → Bool}
    (h : Mid w e out sl cl) (i : Bool) {c : Enc} {sls : List Slot} {b : Bool}
    (hc : ∀ popped, Coded (cl i) (e.enc i) (sl i) popped → Coded b c sls popped) :
    Mid w { e with enc := Mux.upd e.enc i c } out (Mux.upd sl i sls) (Mux.upd cl i b) := by
  obtain ⟨⟨popped, hw, hcc⟩, hst, heof⟩ := h
  refine ⟨⟨popped, hw, fun j => ?_⟩, hst, heof⟩
  by_cases hj : j = i
  · subst hj
    simp only [Mux.upd_same]
    exact hc _ (hcc j)
  · simp only [Mux.upd_ne _ _ hj]
    exact hcc j

theorem upd_self {α : Type} (f : Bool → α) (i : Bool) (a : α) (h : f i = a) : Mux.upd f i a = f := by
  funext j
  by_cases hj : j = i
  · subst hj; rw [Mux.upd_same, h]
  · rw [Mux.upd_ne _ _ hj]

theorem pending_lt {e e' : Eng} {i : Bool} (h : (e'.enc i).q.length < (e.enc i).q.length)
    (ho : ∀ j, j ≠ i → e'.enc j = e.enc j) : e'.pending < e.pending := by
  unfold Eng.pending
  cases i with
  | false => rw [ho true (by decide)]; omega
  | true => rw [ho false (by decide)]; omega

/-- What performing steps does. -/
structure Stepped (fin : Bool) (w : UInt8) (e : Eng) (out : List UInt8) (sl : Bool → List Slot)
    (cl : Bool → Bool) (r : List Micro) (room : Nat) (e' : Eng) (o : List UInt8) (r' : List Micro)
    (sl' : Bool → List Slot) (cl' : Bool → Bool) : Prop where
  mid : Mid w e' (out ++ o) sl' cl'
  prog : e'.cmp.progress = 16
  len : o.length ≤ room
  same : Same e e'
  slots : ∀ i, sl' i ++ putsIn i r' = sl i ++ putsIn i r
  ready : Ready fin e' cl' r'
  open_ : (∀ i, Micro.close i ∉ r) → cl' = cl ∧ ∀ i, Micro.close i ∉ r'
  le : r'.length ≤ r.length
  stop : r' ≠ [] → o.length = room ∧ (∃ i q, r' = .need i :: q) ∧
    (r'.length < r.length ∨ r' = r ∧ e'.pending < e.pending)

theorem Stepped.cons {fin : Bool} {w : UInt8} {e e1 e' : Eng} {out o1 o : List UInt8}
    {sl sl1 sl' : Bool → List Slot} {cl cl1 cl' : Bool → Bool} {m : Micro} {r r' : List Micro} {room : Nat}
    (h : Stepped fin w e1 (out ++ o1) sl1 cl1 r (room - o1.length) e' o r' sl' cl') (hs : Same e e1)
    (hl : o1.length ≤ room) (hsl : ∀ i, sl1 i ++ putsIn i r = sl i ++ putsIn i (m :: r))
    (ho : (∀ i, m ≠ .close i) → cl1 = cl) :
    Stepped fin w e out sl cl (m :: r) room e' (o1 ++ o) r' sl' cl' := by
  obtain ⟨h1, h2, h3, h4, h5, h6, h7, h8, h9⟩ := h
  refine ⟨by rw [← List.append_assoc]; exact h1, h2, ?_, hs.trans h4, fun i => (h5 i).trans (hsl i), h6, ?_, ?_, ?_⟩
  · rw [List.length_append]; omega
  · intro hc
    obtain ⟨a, b⟩ := h7 fun i hi => hc i (by simp [hi])
    exact ⟨a.trans (ho fun i hi => hc i (by simp [hi])), b⟩
  · rw [List.length_cons]; omega
  · intro hr
    obtain ⟨a, b, c⟩ := h9 hr
    refine ⟨?_, b, .inl ?_⟩
    · rw [List.length_append, a]; omega
    · rw [List.length_cons]
      rcases c with c | ⟨rfl, -⟩ <;> omega

theorem steps_spec (fin : Bool) : ∀ (r : List Micro) {w : UInt8} {e : Eng} {out : List UInt8}
    {sl : Bool → List Slot} {cl : Bool → Bool} (room : Nat), Mid w e out sl cl → e.cmp.progress = 16 →
    Ready fin e cl r →
    ∃ e' o r' sl' cl', steps r e room = some (e', o, r') ∧
      Stepped fin w e out sl cl r room e' o r' sl' cl' := by
  intro r
  induction r with
  | nil =>
    intro w e out sl cl room h hp hr
    exact ⟨e, [], [], sl, cl, rfl, by simpa using h, hp, Nat.zero_le _, .refl e, fun _ => rfl, hr,
      fun _ => ⟨rfl, by simp⟩, Nat.le_refl _, fun hne => absurd rfl hne⟩
  | cons m r ih =>
    intro w e out sl cl room h hp hr
    obtain ⟨⟨k, hk, hwf⟩, hval⟩ := hr
    have hval' : ∀ i s, Micro.put i s ∈ r → s.Valid := fun i s hm => hval i s (by simp [hm])
    cases m with
    | need i =>
      rw [wf] at hwf
      obtain ⟨e1, o1, ok, g1, g2, g3, g4, g5, g6, g7, g8, g9, g10, g11⟩ :=
        drain_spec i ((e.enc i).q.length + 1) room h hp (Nat.lt_succ_self _)
      cases ok with
      | false =>
        have hne : (e.enc i).q ≠ [] := by
          intro hq
          obtain ⟨rfl, -⟩ := g9 hq
          exact absurd (g5.2 hq) (by simp)
        refine ⟨e1, o1, .need i :: r, sl, cl, by rw [steps, g1], g2, g3, g4, g10, fun _ => rfl, ⟨⟨k, ?_, ?_⟩, hval⟩,
          fun hc => ⟨rfl, hc⟩, Nat.le_refl _, fun _ => ⟨g6 rfl, ⟨i, r, rfl⟩, .inr ⟨rfl, pending_lt (g7 hne) g8⟩⟩⟩
        · intro j hj
          by_cases hji : j = i
          · subst hji; exact absurd (hk j hj) hne
          · rw [g8 j hji]; exact hk j hj
        · rw [wf]; exact hwf
      | true =>
        have hs : Sound (Mux.upd k i true) e1 := by
          intro j hj
          by_cases hji : j = i
          · subst hji; exact g5.1 rfl
          · rw [Mux.upd_ne _ _ hji] at hj
            rw [g8 j hji]; exact hk j hj
        obtain ⟨e', o, r', sl', cl', q1, q2⟩ := ih (room - o1.length) g2 g3 ⟨⟨_, hs, hwf⟩, hval'⟩
        refine ⟨e', o1 ++ o, r', sl', cl', by rw [steps, g1]; simp only [q1, Option.map_some], ?_⟩
        exact q2.cons g10 g4 (fun j => rfl) fun _ => rfl
    | attempt i =>
      rw [wf] at hwf
      obtain ⟨e1, o1, ok, g1, g2, g3, g4, g5, g6, g7, g8, g9, g10, g11⟩ :=
        drain_spec i ((e.enc i).q.length + 1) room h hp (Nat.lt_succ_self _)
      have hs : Sound k e1 := by
        intro j hj
        by_cases hji : j = i
        · subst hji
          obtain ⟨rfl, -⟩ := g9 (hk j hj)
          exact hk j hj
        · rw [g8 j hji]; exact hk j hj
      obtain ⟨e', o, r', sl', cl', q1, q2⟩ := ih (room - o1.length) g2 g3 ⟨⟨k, hs, hwf⟩, hval'⟩
      refine ⟨e', o1 ++ o, r', sl', cl', by rw [steps, g1]; simp only [q1, Option.map_some], ?_⟩
      exact q2.cons g10 g4 (fun j => rfl) fun _ => rfl
    | put i s =>
      rw [wf, Bool.and_eq_true, Bool.and_eq_true] at hwf
      obtain ⟨⟨hki, hci⟩, hwf⟩ := hwf
      have hci' : cl i = false := by simpa using hci
      have hq := hk i hki
      obtain ⟨popped0, hw0, hc0⟩ := h.hist
      have hci0 := hc0 i
      rw [hci'] at hci0
      obtain ⟨c, hput, -⟩ := hci0.put hq (hval i s (by simp))
      have hm : Mid w { e with enc := Mux.upd e.enc i c } out (Mux.upd sl i (sl i ++ [s])) (Mux.upd cl i false) := by
        refine mid_upd h i fun popped hc => ?_
        rw [hci'] at hc
        obtain ⟨c', e2, hc2⟩ := hc.put hq (hval i s (by simp))
        rw [hput] at e2
        cases e2
        exact hc2
      rw [upd_self cl i false hci'] at hm
      have hs : Sound (Mux.upd k i false) { e with enc := Mux.upd e.enc i c } := by
        intro j hj
        by_cases hji : j = i
        · subst hji; simp at hj
        · rw [Mux.upd_ne _ _ hji] at hj
          simp only [Mux.upd_ne _ _ hji]
          exact hk j hj
      rw [← List.append_nil out] at hm
      obtain ⟨e', o, r', sl', cl', q1, q2⟩ := ih (room - 0) hm hp ⟨⟨_, hs, hwf⟩, hval'⟩
      refine ⟨e', o, r', sl', cl', by rw [steps, if_pos hq, hput]; exact q1, ?_⟩
      refine q2.cons (o1 := []) rfl (Nat.zero_le _) (fun j => ?_) fun _ => rfl
      by_cases hj : j = i
      · subst hj; simp [putsIn]
      · have : i ≠ j := fun hh => hj hh.symm
        simp [Mux.upd_ne _ _ hj, putsIn, this]
    | close i =>
      rw [wf, Bool.and_eq_true, Bool.and_eq_true] at hwf
      obtain ⟨⟨hki, hci⟩, hwf⟩ := hwf
      have hci' : cl i = false := by simpa using hci
      have hq := hk i hki
      obtain ⟨popped0, hw0, hc0⟩ := h.hist
      have hci0 := hc0 i
      rw [hci'] at hci0
      obtain ⟨c, hfl, -⟩ := hci0.close hq
      have hm : Mid w { e with enc := Mux.upd e.enc i c } out (Mux.upd sl i (sl i)) (Mux.upd cl i true) := by
        refine mid_upd h i fun popped hc => ?_
        rw [hci'] at hc
        obtain ⟨c', e2, hc2⟩ := hc.close hq
        rw [hfl] at e2
        cases e2
        exact hc2
      rw [upd_self sl i _ rfl] at hm
      have hs : Sound (Mux.upd k i false) { e with enc := Mux.upd e.enc i c } := by
        intro j hj
        by_cases hji : j = i
        · subst hji; simp at hj
        · rw [Mux.upd_ne _ _ hji] at hj
          simp only [Mux.upd_ne _ _ hji]
          exact hk j hj
      rw [← List.append_nil out] at hm
      obtain ⟨e', o, r', sl', cl', q1, q2⟩ := ih (room - 0) hm hp ⟨⟨_, hs, hwf⟩, hval'⟩
      refine ⟨e', o, r', sl', cl', by rw [steps, if_pos hq, hfl]; exact q1, ?_⟩
      exact q2.cons (o1 := []) rfl (Nat.zero_le _) (fun j => rfl) fun hc => absurd rfl (hc i)

end Divans.Eng
