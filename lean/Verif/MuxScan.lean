import Verif.MuxLemmas

/-!
# Deserialisation as a byte automaton

`step` reads one byte of the multiplexed format.  `deserialize_spec` shows that the model of
`deserialize` does the same work in larger units.
-/

namespace Divans.Mux

/-- A payload of size zero is no payload. -/
def norm : Btd → Btd
  | .some _ 0 => .none
  | b => b

@[simp] theorem norm_none : norm .none = .none := rfl
@[simp] theorem norm_zero (id : Bool) : norm (.some id 0) = .none := rfl
@[simp] theorem norm_hdr0 (id : Bool) : norm (.hdr0 id) = .hdr0 id := rfl
@[simp] theorem norm_hdr1 (id : Bool) (l : UInt8) : norm (.hdr1 id l) = .hdr1 id l := rfl
theorem norm_succ (id : Bool) (c : Nat) : norm (.some id (c + 1)) = .some id (c + 1) := rfl

/-- Everything that matters for reading on: what the next byte is, how much of the end marker was
seen, and the bytes delivered so far. -/
structure Scan where
  btd : Btd
  eof : Eof
  out : Bool → List UInt8

/-- One step inside the end marker; `none` if the byte does not continue it. -/
def eofStep : Eof → UInt8 → Option Eof
  | .running, b => if b = 0xff then some .start else none
  | .start, b => if b = 0xfe then some .mid else none
  | .mid, b => if b = 0xff then some .done else none
  | .done, _ => none

/-- Is the byte read as part of an end marker? -/
def isMark (e : Eof) (b : UInt8) : Prop := b = 0xff ∨ (b = 0xfe ∧ e ≠ .running)

instance (e : Eof) (b : UInt8) : Decidable (isMark e b) := by unfold isMark; infer_instance

/-- Read one byte; `none` if it is refused. -/
def step (s : Scan) (b : UInt8) : Option Scan :=
  if s.eof = .done then none
  else match s.btd with
    | .hdr0 id => some { s with btd := .hdr1 id b }
    | .hdr1 id lsb => some { s with btd := .some id (lsb.toNat + 256 * b.toNat + 1) }
    | .some id c => some { s with btd := norm (.some id (c - 1)), out := upd s.out id (s.out id ++ [b]) }
    | .none =>
      if isMark s.eof b then (eofStep s.eof b).map fun e => { s with eof := e }
      else if b.toNat < 16 then some { s with btd := .hdr0 (idOf b) }
      else some { s with btd := norm (.some (idOf b) (fixedSize b)) }

/-- Read a list of bytes; `none` if one is refused. -/
def runAll : Scan → List UInt8 → Option Scan
  | s, [] => some s
  | s, b :: r => (step s b).bind fun s' => runAll s' r

theorem runAll_append (s : Scan) (a b : List UInt8) :
    runAll s (a ++ b) = (runAll s a).bind fun s' => runAll s' b := by
  induction a generalizing s with
  | nil => rfl
  | cons x xs ih =>
    simp only [List.cons_append, runAll]
    cases step s x with
    | none => rfl
    | some s' => simp only [Option.bind_some, ih]

theorem upd_upd {α : Type} (f : Bool → α) (i : Bool) (v w : α) : upd (upd f i v) i w = upd f i w := by
  funext j; simp only [upd]; split <;> rfl

theorem upd_self {α : Type} (f : Bool → α) (i : Bool) : upd f i (f i) = f := by
  funext j; simp only [upd]; split
  · next h => rw [h]
  · rfl

/-- Reading payload bytes. -/
theorem runAll_payload (id : Bool) (e : Eof) (he : e ≠ .done) :
    ∀ (data : List UInt8) (c : Nat) (o : Bool → List UInt8), data.length ≤ c →
      runAll ⟨norm (.some id c), e, o⟩ data =
        some ⟨norm (.some id (c - data.length)), e, upd o id (o id ++ data)⟩ := by
  intro data
  induction data with
  | nil => intro c o _; simp [runAll, upd_self]
  | cons b r ih =>
    intro c o hc
    simp only [List.length_cons] at hc
    obtain ⟨c, rfl⟩ : ∃ k, c = k + 1 := ⟨c - 1, by omega⟩
    rw [norm_succ, runAll, step]
    simp only [he, if_false, Option.bind_some, Nat.add_sub_cancel]
    rw [ih c _ (by omega)]
    simp only [upd_same, upd_upd, List.append_assoc, List.singleton_append, List.length_cons]
    rw [show c + 1 - (r.length + 1) = c - r.length from by omega]

/-- What of the multiplexer object matters for reading. -/
def scanOf (m : Mux) : Scan := ⟨norm m.btd, m.eof, m.unread⟩

/-- Rounds needed beyond two per byte. -/
def extra : Btd → Nat
  | .some _ _ => 1
  | _ => 0

theorem scanOf_push {m m' : Mux} {b' : Buf} {i : Bool} {data : List UInt8}
    (h : m' = { m with buf := upd m.buf i b' }) (hb : b'.unread = (m.buf i).unread ++ data) (t : Btd) :
    scanOf { m' with btd := t } = ⟨norm t, m.eof, upd m.unread i (m.unread i ++ data)⟩ := by
  simp only [scanOf, Scan.mk.injEq, true_and]
  refine ⟨by rw [h], ?_⟩
  funext j
  have := mux_push_unread h hb j
  simp only [Mux.unread] at this ⊢
  rw [this]
  by_cases hj : j = i
  · subst hj; simp [upd]
  · simp [upd_ne _ _ hj, hj, Mux.unread]

theorem runAll_eof {m : Mux} (hm : m.btd = .none) (b : UInt8) (r : List UInt8) (hd : m.eof ≠ .done)
    (hb : isMark m.eof b) :
    (deserializeEof m (b :: r)).2 ≤ (b :: r).length ∧
    runAll (scanOf m) ((b :: r).take (deserializeEof m (b :: r)).2) =
      some (scanOf (deserializeEof m (b :: r)).1) ∧
    ((deserializeEof m (b :: r)).2 = 0 → step (scanOf m) b = none) ∧
    (deserializeEof m (b :: r)).1.buf = m.buf := by
  obtain ⟨buf, avail, cur, lf, fl, btd, eof⟩ := m
  simp only at hm hd hb
  subst hm
  have hx : (0xfe : UInt8) ≠ 0xff := by decide
  rcases eof with _ | _ | _ | _
  · obtain rfl : b = 0xff := by simpa [isMark] using hb
    rcases r with _ | ⟨b1, _ | ⟨b2, r⟩⟩
    · simp [deserializeEof, runAll, step, scanOf, isMark, eofStep]; rfl
    · by_cases h1 : b1 = 0xfe
      · subst h1
        simp [deserializeEof, runAll, step, scanOf, isMark, eofStep]; rfl
      · simp [deserializeEof, runAll, step, scanOf, isMark, eofStep, h1]; rfl
    · by_cases h1 : b1 = 0xfe
      · subst h1
        by_cases h2 : b2 = 0xff
        · subst h2
          have : r.length + 1 + 1 + 1 - r.length = 3 := by omega
          simp [deserializeEof, runAll, step, scanOf, isMark, eofStep, this]; rfl
        · have : r.length + 1 + 1 + 1 - (r.length + 1) = 2 := by omega
          simp [deserializeEof, runAll, step, scanOf, isMark, eofStep, h2, this]; rfl
      · have : r.length + 1 + 1 + 1 - (r.length + 1 + 1) = 1 := by omega
        simp [deserializeEof, runAll, step, scanOf, isMark, eofStep, h1, this]; rfl
  · by_cases h0 : b = 0xfe
    · subst h0
      rcases r with _ | ⟨b1, r⟩
      · simp [deserializeEof, runAll, step, scanOf, isMark, eofStep]; rfl
      · by_cases h1 : b1 = 0xff
        · subst h1
          have : r.length + 1 + 1 - r.length = 2 := by omega
          simp [deserializeEof, runAll, step, scanOf, isMark, eofStep, this]; rfl
        · have : r.length + 1 + 1 - (r.length + 1) = 1 := by omega
          simp [deserializeEof, runAll, step, scanOf, isMark, eofStep, h1, this]; rfl
    · obtain rfl : b = 0xff := by simpa [isMark, h0] using hb
      simp [deserializeEof, runAll, step, scanOf, isMark, eofStep]
  · by_cases h0 : b = 0xff
    · subst h0
      have : r.length + 1 - r.length = 1 := by omega
      simp [deserializeEof, runAll, step, scanOf, isMark, eofStep, this]; rfl
    · obtain rfl : b = 0xfe := by simpa [isMark, h0] using hb
      simp [deserializeEof, runAll, step, scanOf, isMark, eofStep]
  · exact absurd rfl hd

/-- `deserialize` never fails, and does what the byte automaton does on the bytes it consumes; if it
consumes nothing of a non-empty input then the automaton refuses the first byte. -/
theorem deserializeAux_spec : ∀ (fuel : Nat) (m : Mux) (input : List UInt8), m.Ok →
    2 * input.length + extra m.btd ≤ fuel →
    ∃ m' n, deserializeAux fuel m input = some (m', n) ∧ m'.Ok ∧ n ≤ input.length ∧
      runAll (scanOf m) (input.take n) = some (scanOf m') ∧
      (n = 0 → ∀ b r, input = b :: r → step (scanOf m) b = none) ∧
      m'.avail = m.avail := by
  intro fuel
  induction fuel with
  | zero =>
    intro m input hm hf
    obtain rfl : input = [] := List.eq_nil_of_length_eq_zero (by omega)
    exact ⟨m, 0, by simp [deserializeAux], hm, Nat.le_refl _, by simp [runAll], by simp, rfl⟩
  | succ fuel ih =>
    intro m input hm hf
    rcases input with _ | ⟨b, r⟩
    · exact ⟨m, 0, by simp [deserializeAux], hm, Nat.le_refl _, by simp [runAll], by simp, rfl⟩
    rw [deserializeAux]
    by_cases hd : m.eof = .done
    · rw [if_pos hd]
      refine ⟨m, 0, rfl, hm, Nat.zero_le _, by simp [runAll], ?_, rfl⟩
      rintro - b' r' ⟨rfl, rfl⟩
      simp [step, scanOf, hd]
    rw [if_neg hd]
    simp only [List.length_cons] at hf
    -- one byte consumed by the automaton, then the rest
    have one : ∀ t : Btd, step (scanOf m) b = some ⟨norm t, m.eof, m.unread⟩ →
        2 * r.length + extra t ≤ fuel →
        ∃ m' n, (deserializeAux fuel { m with btd := t } r).map (fun p => (p.1, p.2 + 1)) = some (m', n) ∧
          m'.Ok ∧ n ≤ (b :: r).length ∧
          runAll (scanOf m) ((b :: r).take n) = some (scanOf m') ∧
          (n = 0 → ∀ b' r', b :: r = b' :: r' → step (scanOf m) b' = none) ∧
          m'.avail = m.avail := by
      intro t hs hfu
      obtain ⟨m', n, e, hok, hn, hrun, -, hav⟩ := ih { m with btd := t } r hm hfu
      refine ⟨m', n + 1, by rw [e]; rfl, hok, by simp only [List.length_cons]; omega, ?_, by simp, hav⟩
      rw [List.take_succ_cons, runAll, hs]
      exact hrun
    cases hbtd : m.btd with
    | hdr0 id =>
      refine one (.hdr1 id b) ?_ (by simp only [extra]; omega)
      simp [step, scanOf, hd, hbtd]
    | hdr1 id lsb =>
      refine one (.some id (lsb.toNat + 256 * b.toNat + 1)) ?_ (by simp only [extra]; omega)
      simp [step, scanOf, hd, hbtd, norm_succ]
    | some id count =>
      rw [hbtd] at hf
      simp only [extra] at hf
      simp only
      by_cases hc : count > (b :: r).length
      · rw [if_pos hc]
        obtain ⟨m', b', e, hm', hok, hun, -⟩ := mux_push_spec hm id (b :: r)
        refine ⟨{ m' with btd := .some id (count - (b :: r).length) }, _, by rw [e]; rfl, hok,
          Nat.le_refl _, ?_, by simp, by simp only [hm']⟩
        rw [scanOf_push hm' hun, List.take_length, scanOf, hbtd, runAll_payload _ _ hd _ _ _ (by omega)]
      · rw [if_neg hc]
        obtain ⟨m', b', e, hm', hok, hun, -⟩ := mux_push_spec hm id ((b :: r).take count)
        rw [e]
        have hl : ((b :: r).take count).length = count := by rw [List.length_take]; omega
        obtain ⟨m'', n, e2, hok2, hn, hrun, hz, hav⟩ := ih { m' with btd := .none } ((b :: r).drop count)
          hok (by simp only [List.length_drop, List.length_cons, extra]; omega)
        rw [scanOf_push hm' hun] at hrun hz
        have hrun' : runAll (scanOf m) ((b :: r).take count) =
            some ⟨norm .none, m.eof, upd m.unread id (m.unread id ++ (b :: r).take count)⟩ := by
          rw [scanOf, hbtd, runAll_payload _ _ hd _ _ _ (by omega), hl, Nat.sub_self]; rfl
        refine ⟨m'', n + count, by simp only [e2, Option.map_some], hok2, ?_, ?_, ?_, ?_⟩
        · rw [List.length_drop] at hn; omega
        · rw [Nat.add_comm, List.take_add, runAll_append, hrun', Option.bind_some, hrun]
        · intro h0 b1 r1 h1
          obtain ⟨rfl, rfl⟩ : n = 0 ∧ count = 0 := by omega
          have := hz rfl b1 r1 (by rw [List.drop_zero, h1])
          rw [← this, scanOf, hbtd]
          simp [upd_self]
        · rw [hav]; simp only [hm']
    | none =>
      simp only
      by_cases hmk : b = 0xff ∨ (b = 0xfe ∧ m.eof ≠ .running)
      · rw [if_pos hmk]
        obtain ⟨h1, h2, h3, -⟩ := runAll_eof hbtd b r hd hmk
        refine ⟨_, _, rfl, ?_, h1, h2, ?_, rfl⟩
        · exact hm
        · rintro h0 b' r' ⟨rfl, rfl⟩; exact h3 h0
      rw [if_neg hmk]
      have hmk' : ¬ isMark m.eof b := hmk
      by_cases hb : b.toNat < 16
      · rw [if_pos hb]
        have hs : step (scanOf m) b = some ⟨.hdr0 (idOf b), m.eof, m.unread⟩ := by
          simp [step, scanOf, hd, hbtd, hmk', hb]
        by_cases hl : (b :: r).length < 3
        · rw [if_pos hl]
          exact one (.hdr0 (idOf b)) hs (by simp only [extra]; omega)
        · rw [if_neg hl]
          rcases r with _ | ⟨b1, _ | ⟨b2, r'⟩⟩
          · simp at hl
          · simp at hl
          simp only [List.length_cons] at hf
          obtain ⟨m', n, e, hok, hn, hrun, -, hav⟩ := ih
            { m with btd := .some (idOf b) (b1.toNat + 256 * b2.toNat + 1) } r' hm
            (by simp only [extra]; omega)
          refine ⟨m', n + 3, by simp [e], hok,
            by simp only [List.length_cons]; omega, ?_, by simp, hav⟩
          simp only [List.take_succ_cons, runAll, hs, Option.bind_some]
          simp only [step, hd, if_false, Option.bind_some]
          exact hrun
      · rw [if_neg hb]
        refine one (.some (idOf b) (fixedSize b)) ?_ (by simp only [extra]; omega)
        simp [step, scanOf, hd, hbtd, hmk', hb]

theorem deserialize_spec {m : Mux} (hm : m.Ok) (input : List UInt8) :
    ∃ m' n, deserialize m input = some (m', n) ∧ m'.Ok ∧ n ≤ input.length ∧
      runAll (scanOf m) (input.take n) = some (scanOf m') ∧
      (n = 0 → ∀ b r, input = b :: r → step (scanOf m) b = none) ∧
      m'.avail = m.avail := by
  refine deserializeAux_spec _ m input hm ?_
  have : extra m.btd ≤ 1 := by cases m.btd <;> simp [extra]
  omega

end Divans.Mux
