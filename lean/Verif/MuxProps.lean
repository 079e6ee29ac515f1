import Verif.MuxSer

/-!
# Properties of the multiplexer: C09, C10, C11

A user of the multiplexer performs `MOp`s, a user of the demultiplexer performs `DOp`s.  The
statements mention only the bytes pushed, the bytes written to the outputs, the bytes offered, the
bytes read, and the end-of-stream flags.
-/

namespace Divans.Mux

/-! ## Histories of a multiplexer -/

/-- One operation on a multiplexer: push bytes, store bytes through `write_buffer`, serialise into
an output of the given size, or close into an output of the given size. -/
inductive MOp where
  | push (i : Bool) (data : List UInt8)
  | fill (i : Bool) (data : List UInt8)
  | serialize (room : Nat)
  | close (room : Nat)

/-- Perform an operation; also returns the bytes written to the output. -/
def MOp.run (m : Mux) : MOp → Option (Mux × List UInt8)
  | .push i data => (m.push i data).map fun m' => (m', [])
  | .fill i data => (m.fill i data).map fun m' => (m', [])
  | .serialize room => Mux.serialize m room
  | .close room => serializeClose m room

/-- The bytes pushed onto stream `i` by an operation. -/
def MOp.data (i : Bool) : MOp → List UInt8
  | .push j data => if i = j then data else []
  | .fill j data => if i = j then data else []
  | _ => []

/-- Perform operations one after the other; also returns everything written to the outputs. -/
def runOps : Mux → List MOp → Option (Mux × List UInt8)
  | m, [] => some (m, [])
  | m, op :: ops => do
    let (m', out) ← op.run m
    let (m'', out') ← runOps m' ops
    some (m'', out ++ out')

/-- Everything pushed onto stream `i`. -/
def pushed (ops : List MOp) (i : Bool) : List UInt8 := (ops.map (MOp.data i)).flatten

/-- What a user must respect: no data after the end of stream was reported, and a producer that
stores through `write_buffer` stays inside the slice it was given. -/
def MOp.allowed (m : Mux) : MOp → Bool
  | .push _ _ => !m.isEof
  | .fill i data => !m.isEof && (m.fill i data).isSome
  | _ => true

/-- A history that respects `allowed` at every step. -/
def legal : Mux → List MOp → Bool
  | _, [] => true
  | m, op :: ops => op.allowed m && (match op.run m with | none => true | some (m', _) => legal m' ops)

/-! ## Histories of a demultiplexer -/

/-- A demultiplexer in use: the object, the bytes offered but not accepted yet, and everything read
from the streams so far. -/
structure Demux where
  m : Mux
  rest : List UInt8
  got : Bool → List UInt8

/-- A new demultiplexer. -/
def Demux.new : Demux := ⟨Mux.new, [], fun _ => []⟩

/-- One operation on a demultiplexer: offer more input, mark bytes as read, take the whole buffer of
a stream, give a used allocation back. -/
inductive DOp where
  | offer (piece : List UInt8)
  | consume (i : Bool) (n : Nat)
  | take (i : Bool)
  | recycle (i : Bool) (mem : List UInt8)

/-- Offer input again and again, each time what was left over, until nothing more is accepted. -/
def drive : Nat → Mux → List UInt8 → Option (Mux × List UInt8)
  | _, m, [] => some (m, [])
  | 0, _, _ :: _ => none
  | fuel + 1, m, b :: r =>
    match deserialize m (b :: r) with
    | none => none
    | some (m', n) => if n = 0 then some (m', b :: r) else drive fuel m' ((b :: r).drop n)

/-- Perform an operation. -/
def DOp.run (d : Demux) : DOp → Option Demux
  | .offer piece =>
    (drive ((d.rest ++ piece).length) d.m (d.rest ++ piece)).map fun (m, rest) => { d with m := m, rest := rest }
  | .consume i n => some { d with m := d.m.consume i n, got := upd d.got i (d.got i ++ (d.m.unread i).take n) }
  | .take i => some { d with m := (d.m.takeBuf i).1, got := upd d.got i (d.got i ++ (d.m.takeBuf i).2.unread) }
  | .recycle i mem => some { d with m := d.m.recycle i mem }

/-- Perform operations one after the other. -/
def runD : Demux → List DOp → Option Demux
  | d, [] => some d
  | d, op :: ops => (op.run d).bind fun d' => runD d' ops

/-- Everything offered. -/
def offered : List DOp → List UInt8
  | [] => []
  | .offer piece :: ops => piece ++ offered ops
  | _ :: ops => offered ops

/-- What a reader must respect: it reads no more than there is. -/
def DOp.allowed (d : Demux) : DOp → Bool
  | .consume i n => decide (n ≤ (d.m.unread i).length)
  | _ => true

/-- A history that respects `allowed` at every step. -/
def dlegal : Demux → List DOp → Bool
  | _, [] => true
  | d, op :: ops => op.allowed d && (match op.run d with | none => true | some d' => dlegal d' ops)

/-- Everything stream `i` has delivered: what was read and what is ready to be read. -/
def Demux.received (d : Demux) (i : Bool) : List UInt8 := d.got i ++ d.m.unread i

/-! ## Proofs: the multiplexer -/

theorem lo_le_unread {m : Mux} (hi : Inv m) (i : Bool) : lo m i ≤ (m.unread i).length := by
  have h1 := hi.fits i
  have h2 := unread_length (hi.ok i)
  rw [Mux.unread, h2]; omega

/-- Appending to the buffers keeps the invariant. -/
theorem grow_spec {m : Mux} (hi : Inv m) (g : Bool → Buf) (d : Bool → List UInt8)
    (hok : ∀ j, (g j).Ok) (hun : ∀ j, (g j).unread = m.unread j ++ d j)
    (hst : ∀ j, (g j).start = (m.buf j).start ∧ (g j).mem.length = (m.buf j).mem.length ∨ (g j).start = 3) :
    Inv { m with buf := g } ∧ ∀ P out, m.eof ≠ .done → Rel m P out →
      Rel { m with buf := g } (fun i => P i ++ d i) out := by
  have hlo := lo_le_unread hi
  refine ⟨⟨hok, ?_, ?_⟩, ?_⟩
  · intro j
    have h1 := unread_length (hok j)
    have h2 := hlo j
    rw [hun j, List.length_append] at h1
    obtain ⟨h3, -⟩ := hok j
    have : lo { m with buf := g } j = lo m j := rfl
    simp only [this]
    omega
  · intro j
    have : lo { m with buf := g } j = lo m j := rfl
    simp only [this]
    rcases hst j with ⟨h1, h2⟩ | h
    · rw [h1]
      rcases hi.room j with h | h
      · exact Or.inl h
      · right
        rw [h, List.length_nil] at h2
        exact List.eq_nil_of_length_eq_zero h2
    · left; omega
  · rintro P out hne ⟨⟨s, hrun, hb, he, ho⟩, -⟩
    refine ⟨⟨s, ?_, hb, he, ?_⟩, fun h => absurd h hne⟩
    · rw [← hrun]
      congr 2
      simp only [Mux.unread, hun]
      rw [List.take_append_of_le_length]
      have := hlo m.cur
      rw [lo, if_pos rfl] at this
      exact this
    · intro j
      simp only
      rw [← ho j, List.append_assoc]
      congr 1
      have : lo { m with buf := g } j = lo m j := rfl
      rw [this]
      simp only [Mux.unread, hun]
      exact List.drop_append_of_le_length (hlo j)

theorem op_push {m : Mux} (hi : Inv m) (i : Bool) (data : List UInt8) :
    ∃ m', m.push i data = some m' ∧ Inv m' ∧ ∀ P out, m.eof ≠ .done → Rel m P out →
      Rel m' (fun j => P j ++ if j = i then data else []) out := by
  obtain ⟨m', b', e, hm', hok, hun, hst⟩ := mux_push_spec hi.ok i data
  subst hm'
  refine ⟨_, e, ?_⟩
  apply grow_spec hi (upd m.buf i b') (fun j => if j = i then data else [])
  · intro j
    have := hok j
    exact this
  · intro j
    by_cases hj : j = i
    · subst hj; simp [hun, Mux.unread]
    · simp [upd_ne _ _ hj, hj, Mux.unread]
  · intro j
    by_cases hj : j = i
    · subst hj; simpa using hst
    · simp [upd_ne _ _ hj]

theorem op_fill {m : Mux} (hi : Inv m) (i : Bool) (data : List UInt8) (hs : (m.fill i data).isSome) :
    ∃ m', m.fill i data = some m' ∧ Inv m' ∧ ∀ P out, m.eof ≠ .done → Rel m P out →
      Rel m' (fun j => P j ++ if j = i then data else []) out := by
  obtain ⟨b0, e0, hok0, hun0, -, hst0⟩ := prepPush_spec (hi.ok false) 16
  obtain ⟨b1, e1, hok1, hun1, -, hst1⟩ := prepPush_spec (hi.ok true) 16
  simp only [Mux.fill, e0, e1, Option.bind_eq_bind, Option.bind_some] at hs ⊢
  generalize hb : (if i = true then b1 else b0) = b at hs ⊢
  have hbok : b.Ok := by subst hb; split <;> assumption
  by_cases hfit : b.stop + data.length ≤ b.mem.length
  · obtain ⟨mem, e2, hok2, hun2⟩ := store_spec hbok (data := data) (by obtain ⟨-, h⟩ := hbok; omega)
    rw [e2]
    refine ⟨_, rfl, ?_⟩
    apply grow_spec hi _ (fun j => if j = i then data else [])
    · intro j
      by_cases hj : j = i
      · subst hj; simpa using hok2
      · rw [upd_ne _ _ hj]; cases j <;> simpa
    · intro j
      by_cases hj : j = i
      · subst hj
        rw [upd_same, if_pos rfl, hun2]
        subst hb
        cases j <;> simp_all [Mux.unread]
      · rw [upd_ne _ _ hj, if_neg hj, List.append_nil]
        cases j <;> simp_all [Mux.unread]
    · have hlen := writeAt_length e2
      intro j
      by_cases hj : j = i
      · subst hj
        rw [upd_same]
        subst hb
        cases j
        · rcases hst0 with rfl | h
          · left; simpa using hlen
          · right; simpa using h
        · rcases hst1 with rfl | h
          · left; simpa using hlen
          · right; simpa using h
      · rw [upd_ne _ _ hj]
        cases j
        · rcases hst0 with rfl | h
          · left; simp
          · right; simpa using h
        · rcases hst1 with rfl | h
          · left; simp
          · right; simpa using h
  · exfalso
    rw [writeAt, if_neg hfit] at hs
    simp at hs

theorem isEof_of_rel {m : Mux} {P : Bool → List UInt8} {out : List UInt8} (hi : Inv m) (hr : Rel m P out) :
    m.isEof = true ↔ m.eof = .done := by
  refine ⟨fun h => (of_decide_eq_true h).2.2, fun h => decide_eq_true ⟨?_, ?_, h⟩⟩
  all_goals
    have h1 := hr.2 h
    have hf := congrArg List.length (h1 false)
    have ht := congrArg List.length (h1 true)
    rw [Mux.unread, unread_length (hi.ok _), List.length_nil] at hf ht
    have := (hi.ok false).1
    have := (hi.ok true).1
    omega

theorem runOps_spec : ∀ (ops : List MOp) (m : Mux) (P : Bool → List UInt8) (pre : List UInt8),
    Inv m → Rel m P pre → legal m ops = true →
    ∃ m' out, runOps m ops = some (m', out) ∧ Inv m' ∧ Rel m' (fun i => P i ++ pushed ops i) (pre ++ out) := by
  intro ops
  induction ops with
  | nil =>
    intro m P pre hi hr _
    refine ⟨m, [], rfl, hi, ?_⟩
    simpa [pushed] using hr
  | cons op ops ih =>
    intro m P pre hi hr hl
    rw [legal, Bool.and_eq_true] at hl
    obtain ⟨hal, hl⟩ := hl
    have key : ∃ m' out, op.run m = some (m', out) ∧ Inv m' ∧
        Rel m' (fun i => P i ++ op.data i) (pre ++ out) := by
      cases op with
      | push i data =>
        obtain ⟨m', e, hi', hr'⟩ := op_push hi i data
        have hne : m.eof ≠ .done := fun h => by
          rw [MOp.allowed, (isEof_of_rel hi hr).mpr h] at hal; cases hal
        refine ⟨m', [], by simp [MOp.run, e], hi', ?_⟩
        simpa [MOp.data] using hr' P pre hne hr
      | fill i data =>
        simp only [MOp.allowed, Bool.and_eq_true] at hal
        obtain ⟨m', e, hi', hr'⟩ := op_fill hi i data hal.2
        have hne : m.eof ≠ .done := fun h => by
          rw [(isEof_of_rel hi hr).mpr h] at hal; cases hal.1
        refine ⟨m', [], by simp [MOp.run, e], hi', ?_⟩
        simpa [MOp.data] using hr' P pre hne hr
      | serialize room =>
        obtain ⟨m', out, e, htr⟩ := serialize_spec hi room
        refine ⟨m', out, e, htr.inv, ?_⟩
        have := htr.rel P pre (by simpa using hr)
        simpa [MOp.data] using this
      | close room =>
        obtain ⟨m', out, e, hi', -, hr', -, -⟩ := close_spec hi room
        refine ⟨m', out, e, hi', ?_⟩
        have := hr' P pre hr
        simpa [MOp.data] using this
    obtain ⟨m', out, e, hi', hr'⟩ := key
    rw [e] at hl
    obtain ⟨m'', out', e', hi'', hr''⟩ := ih m' _ _ hi' hr' hl
    refine ⟨m'', out ++ out', by simp [runOps, e, e'], hi'', ?_⟩
    simpa [pushed, List.append_assoc] using hr''

/-! ## Proofs: the demultiplexer -/

/-- Read as far as bytes are accepted: the state and the refused rest. -/
def scan : Scan → List UInt8 → Scan × List UInt8
  | s, [] => (s, [])
  | s, b :: r => match step s b with
    | none => (s, b :: r)
    | some s' => scan s' r

theorem scan_of_runAll {s s' : Scan} {l r : List UInt8} (h : runAll s l = some s')
    (hr : ∀ b t, r = b :: t → step s' b = none) : scan s (l ++ r) = (s', r) := by
  induction l generalizing s with
  | nil =>
    simp only [runAll, Option.some.injEq] at h
    subst h
    cases r with
    | nil => rfl
    | cons b t => rw [List.nil_append, scan, hr b t rfl]
  | cons b l ih =>
    rw [runAll] at h
    cases hs : step s b with
    | none => rw [hs] at h; cases h
    | some s1 =>
      rw [hs, Option.bind_some] at h
      rw [List.cons_append, scan, hs]
      exact ih h

theorem scan_append {s s' : Scan} {l r x : List UInt8} (h : scan s l = (s', r)) :
    scan s (l ++ x) = scan s' (r ++ x) := by
  induction l generalizing s with
  | nil =>
    simp only [scan, Prod.mk.injEq] at h
    obtain ⟨rfl, rfl⟩ := h
    rfl
  | cons b l ih =>
    rw [scan] at h
    rw [List.cons_append, scan]
    cases hs : step s b with
    | none =>
      rw [hs] at h
      simp only [Prod.mk.injEq] at h
      obtain ⟨rfl, rfl⟩ := h
      rw [List.cons_append, scan, hs]
    | some s1 =>
      rw [hs] at h
      exact ih h

theorem step_prepend (b : Btd) (e : Eof) (o g : Bool → List UInt8) (x : UInt8) :
    step ⟨b, e, fun i => g i ++ o i⟩ x =
      (step ⟨b, e, o⟩ x).map fun s => ⟨s.btd, s.eof, fun i => g i ++ s.out i⟩ := by
  unfold step
  simp only
  split
  · rfl
  · cases b with
    | none =>
      simp only
      split
      · cases eofStep e x <;> rfl
      · split <;> rfl
    | some id c =>
      simp only [Option.map_some, Option.some.injEq, Scan.mk.injEq, true_and]
      funext j
      by_cases hj : j = id
      · subst hj; simp
      · simp [upd_ne _ _ hj]
    | hdr0 id => rfl
    | hdr1 id l => rfl

theorem scan_prepend (g : Bool → List UInt8) : ∀ (l : List UInt8) (s : Scan),
    scan ⟨s.btd, s.eof, fun i => g i ++ s.out i⟩ l =
      (⟨(scan s l).1.btd, (scan s l).1.eof, fun i => g i ++ (scan s l).1.out i⟩, (scan s l).2) := by
  intro l
  induction l with
  | nil => intro s; rfl
  | cons b l ih =>
    intro s
    rw [scan, scan, step_prepend]
    cases hs : step ⟨s.btd, s.eof, s.out⟩ b with
    | none =>
      have : step s b = none := hs
      simp only [this, Option.map_none]
    | some s1 =>
      have : step s b = some s1 := hs
      simp only [this, Option.map_some]
      exact ih s1

theorem drive_spec : ∀ (fuel : Nat) (m : Mux) (input : List UInt8), m.Ok → input.length ≤ fuel →
    ∃ m' rest, drive fuel m input = some (m', rest) ∧ m'.Ok ∧ scan (scanOf m) input = (scanOf m', rest) := by
  intro fuel
  induction fuel with
  | zero =>
    intro m input hm hl
    obtain rfl : input = [] := List.eq_nil_of_length_eq_zero (by omega)
    exact ⟨m, [], by simp [drive], hm, rfl⟩
  | succ fuel ih =>
    intro m input hm hl
    cases input with
    | nil => exact ⟨m, [], by simp [drive], hm, rfl⟩
    | cons b r =>
      rw [drive]
      obtain ⟨m', n, e, hok, hn, hrun, hz, -⟩ := deserialize_spec hm (b :: r)
      rw [e]
      simp only
      by_cases h0 : n = 0
      · subst h0
        rw [if_pos rfl]
        refine ⟨m', b :: r, rfl, hok, ?_⟩
        simp only [List.take_zero, runAll, Option.some.injEq] at hrun
        rw [scan, hz rfl b r rfl, hrun]
      · rw [if_neg h0]
        obtain ⟨m'', rest, e2, hok2, hs⟩ := ih m' ((b :: r).drop n) hok (by
          simp only [List.length_drop, List.length_cons] at hl ⊢; omega)
        refine ⟨m'', rest, e2, hok2, ?_⟩
        rw [← hs]
        have := scan_of_runAll (r := []) hrun (by simp)
        rw [List.append_nil] at this
        have h2 := scan_append (x := (b :: r).drop n) this
        rw [List.take_append_drop, List.nil_append] at h2
        exact h2

/-- The state of a demultiplexer in use is the automaton's state after everything offered. -/
structure DInv (d : Demux) (all : List UInt8) : Prop where
  ok : d.m.Ok
  scan : scan .init all = (⟨norm d.m.btd, d.m.eof, d.received⟩, d.rest)

theorem dinv_new : DInv .new [] := by
  refine ⟨ok_new, ?_⟩
  simp only [Divans.Mux.scan, Demux.new, Mux.new, norm_none, Prod.mk.injEq, and_true]
  unfold Scan.init
  congr 1

theorem dop_spec {d : Demux} {all : List UInt8} (hd : DInv d all) (op : DOp) (hal : op.allowed d = true) :
    ∃ d', op.run d = some d' ∧ DInv d' (all ++ offered [op]) := by
  cases op with
  | offer piece =>
    obtain ⟨m', rest, e, hok, hs⟩ := drive_spec _ d.m (d.rest ++ piece) hd.ok (Nat.le_refl _)
    refine ⟨_, by simp only [DOp.run, e, Option.map_some]; rfl, hok, ?_⟩
    simp only [offered, List.append_nil]
    rw [scan_append hd.scan]
    have := scan_prepend d.got (d.rest ++ piece) (scanOf d.m)
    rw [hs] at this
    exact this
  | consume i n =>
    simp only [DOp.allowed, decide_eq_true_eq] at hal
    have hl := unread_length (hd.ok i)
    rw [Mux.unread, hl] at hal
    have hun : ({ d.m.buf i with start := (d.m.buf i).start + n } : Buf).unread = (d.m.unread i).drop n := by
      simp only [Mux.unread, Buf.unread]
      rw [List.drop_take, List.drop_drop]
      congr 1
      omega
    refine ⟨_, rfl, ?_, ?_⟩
    · intro j
      by_cases hj : j = i
      · subst hj
        obtain ⟨h1, h2⟩ := hd.ok j
        simp only [Mux.consume, upd_same]
        exact ⟨by simp only; omega, h2⟩
      · simp only [Mux.consume, upd_ne _ _ hj]; exact hd.ok j
    · simp only [offered, List.append_nil]
      rw [hd.scan]
      simp only [Mux.consume, Prod.mk.injEq, Scan.mk.injEq, true_and, and_true]
      funext j
      by_cases hj : j = i
      · subst hj
        have h2 : ({ d.m with buf := upd d.m.buf j { d.m.buf j with start := (d.m.buf j).start + n } } : Mux).unread j
            = (d.m.unread j).drop n := by simp only [Mux.unread, upd_same]; exact hun
        simp only [Demux.received, upd_same, h2, List.append_assoc, List.take_append_drop]
      · simp only [Demux.received, upd_ne _ _ hj, Mux.unread]
  | take i =>
    refine ⟨_, rfl, ?_, ?_⟩
    · intro j
      by_cases hj : j = i
      · subst hj; simp [Mux.takeBuf, Buf.Ok, Buf.empty]
      · simp only [Mux.takeBuf, upd_ne _ _ hj]; exact hd.ok j
    · simp only [offered, List.append_nil]
      rw [hd.scan]
      simp only [Mux.takeBuf, Prod.mk.injEq, Scan.mk.injEq, true_and, and_true]
      funext j
      by_cases hj : j = i
      · subst hj; simp [Demux.received, Mux.unread, Buf.unread, Buf.empty]
      · simp only [Demux.received, upd_ne _ _ hj, Mux.unread]
  | recycle i mem =>
    refine ⟨_, rfl, ?_, ?_⟩
    · intro j
      unfold Mux.recycle
      split
      · next h =>
        by_cases hj : j = i
        · subst hj
          obtain ⟨h1, h2⟩ := hd.ok j
          rw [h, List.length_nil] at h2
          simp only [upd_same]
          exact ⟨h1, by simp only; omega⟩
        · simp only [upd_ne _ _ hj]; exact hd.ok j
      · exact hd.ok j
    · simp only [offered, List.append_nil]
      rw [hd.scan]
      unfold Mux.recycle
      split
      · next h =>
        simp only [Prod.mk.injEq, Scan.mk.injEq, true_and, and_true]
        funext j
        by_cases hj : j = i
        · subst hj
          obtain ⟨h1, h2⟩ := hd.ok j
          rw [h, List.length_nil] at h2
          have h3 : (d.m.buf j).stop - (d.m.buf j).start = 0 := by omega
          simp [Demux.received, Mux.unread, Buf.unread, h3]
        · simp only [Demux.received, upd_ne _ _ hj, Mux.unread]
      · rfl

theorem offered_cons (op : DOp) (ops : List DOp) : offered (op :: ops) = offered [op] ++ offered ops := by
  cases op <;> simp [offered]

theorem runD_spec : ∀ (ops : List DOp) (d : Demux) (all : List UInt8), DInv d all → dlegal d ops = true →
    ∃ d', runD d ops = some d' ∧ DInv d' (all ++ offered ops) := by
  intro ops
  induction ops with
  | nil => intro d all hd _; exact ⟨d, rfl, by simpa [offered] using hd⟩
  | cons op ops ih =>
    intro d all hd hl
    rw [dlegal, Bool.and_eq_true] at hl
    obtain ⟨d', e, hd'⟩ := dop_spec hd op hl.1
    have hl2 := hl.2
    rw [e] at hl2
    obtain ⟨d'', e2, hd''⟩ := ih d' _ hd' hl2
    refine ⟨d'', by rw [runD, e, Option.bind_some, e2], ?_⟩
    rw [offered_cons, ← List.append_assoc]
    exact hd''

theorem step_out_prefix {s s' : Scan} {b : UInt8} (h : step s b = some s') (i : Bool) : s.out i <+: s'.out i := by
  unfold step at h
  split at h
  · cases h
  · split at h
    · cases h; exact List.prefix_rfl
    · cases h; exact List.prefix_rfl
    · next id c _ =>
      cases h
      by_cases hj : i = id
      · subst hj; simp
      · simp [upd_ne _ _ hj]
    · split at h
      · cases he : eofStep s.eof b with
        | none => rw [he] at h; cases h
        | some e => rw [he] at h; cases h; exact List.prefix_rfl
      · split at h <;> cases h <;> exact List.prefix_rfl

theorem runAll_out_prefix {l : List UInt8} : ∀ {s s' : Scan}, runAll s l = some s' → ∀ i, s.out i <+: s'.out i := by
  induction l with
  | nil => intro s s' h i; cases h; exact List.prefix_rfl
  | cons b l ih =>
    intro s s' h i
    rw [runAll] at h
    cases hs : step s b with
    | none => rw [hs] at h; cases h
    | some s1 =>
      rw [hs, Option.bind_some] at h
      exact (step_out_prefix hs i).trans (ih h i)

/-! ## The theorems -/

/-- **C11 (multiplexer).**  No history that pushes, stores, serialises and closes makes the
multiplexer fail, and both cursors of both streams stay inside their buffers. -/
theorem mux_cursors (ops : List MOp) (h : legal Mux.new ops = true) :
    ∃ m out, runOps Mux.new ops = some (m, out) ∧
      ∀ i, (m.buf i).start ≤ (m.buf i).stop ∧ (m.buf i).stop ≤ (m.buf i).mem.length := by
  obtain ⟨m, out, e, hi, -⟩ := runOps_spec ops Mux.new _ [] inv_new rel_new h
  exact ⟨m, out, e, hi.ok⟩

/-- **C11 (demultiplexer).**  No history that offers arbitrary bytes, reads what is there, takes
buffers away and gives allocations back makes the demultiplexer fail, and both cursors of both
streams stay inside their buffers. -/
theorem demux_cursors (ops : List DOp) (h : dlegal .new ops = true) :
    ∃ d, runD .new ops = some d ∧
      ∀ i, (d.m.buf i).start ≤ (d.m.buf i).stop ∧ (d.m.buf i).stop ≤ (d.m.buf i).mem.length := by
  obtain ⟨d, e, hd⟩ := runD_spec ops .new [] dinv_new h
  exact ⟨d, e, hd.ok⟩

/-- **C11 (growing and compacting).**  Making room for `n` bytes in a buffer whose cursors are in
order succeeds, makes that room, and keeps the unread bytes. -/
theorem prep_keeps_unread (b : Buf) (n : Nat) (h : b.start ≤ b.stop ∧ b.stop ≤ b.mem.length) :
    ∃ b', prepPush b n = some b' ∧ b'.unread = b.unread ∧ b'.stop + n ≤ b'.mem.length := by
  obtain ⟨b', e, hok, hun, hr, -⟩ := prepPush_spec (b := b) h n
  have := hok.2
  exact ⟨b', e, hun, by omega⟩

/-- **C10.**  What a demultiplexer has delivered, whether it has seen the end, and which of the
offered bytes it has not accepted depend only on the concatenation of the bytes offered: not on how
they were cut into pieces, nor on what was read or taken in between.  This holds for every byte
string, well formed or not, and nothing ever fails. -/
theorem demux_split_independent (ops ops' : List DOp) (h : dlegal .new ops = true)
    (h' : dlegal .new ops' = true) (hsame : offered ops = offered ops') :
    ∃ d d', runD .new ops = some d ∧ runD .new ops' = some d' ∧
      d.received = d'.received ∧ d.m.sawEof = d'.m.sawEof ∧ d.rest = d'.rest := by
  obtain ⟨d, e, hd⟩ := runD_spec ops .new [] dinv_new h
  obtain ⟨d', e', hd'⟩ := runD_spec ops' .new [] dinv_new h'
  refine ⟨d, d', e, e', ?_⟩
  have h1 := hd.scan
  have h2 := hd'.scan
  rw [hsame, h2] at h1
  simp only [Prod.mk.injEq, Scan.mk.injEq] at h1
  exact ⟨h1.1.2.2.symm, by simp only [Mux.sawEof, h1.1.2.1], h1.2.symm⟩

/-- **C10 (bytes after the end marker).**  Once the end was seen, offering more bytes changes
nothing: none of them is accepted. -/
theorem demux_stops_at_end (ops : List DOp) (h : dlegal .new ops = true) (piece : List UInt8) :
    ∃ d, runD .new ops = some d ∧ (d.m.sawEof = true →
      ∃ d', runD .new (ops ++ [.offer piece]) = some d' ∧ d'.received = d.received ∧
        d'.m.sawEof = true ∧ d'.rest = d.rest ++ piece) := by
  obtain ⟨d, e, hd⟩ := runD_spec ops .new [] dinv_new h
  refine ⟨d, e, fun hs => ?_⟩
  have heof : d.m.eof = .done := of_decide_eq_true hs
  obtain ⟨d', e', hd'⟩ := dop_spec hd (.offer piece) rfl
  have hrun : ∀ (l : List DOp) (d0 : Demux), runD d0 l = some d → runD d0 (l ++ [.offer piece]) = some d' := by
    intro l
    induction l with
    | nil =>
      intro d0 h0
      simp only [runD, Option.some.injEq] at h0
      subst h0
      simp [runD, e']
    | cons op l ih =>
      intro d0 h0
      rw [runD] at h0
      rw [List.cons_append, runD]
      cases ho : op.run d0 with
      | none => rw [ho] at h0; cases h0
      | some d1 => rw [ho, Option.bind_some] at h0; exact ih d1 h0
  refine ⟨d', hrun ops _ e, ?_⟩
  have h1 := hd'.scan
  rw [scan_append hd.scan] at h1
  have h2 : scan ⟨norm d.m.btd, d.m.eof, d.received⟩ (d.rest ++ offered [.offer piece]) =
      (⟨norm d.m.btd, d.m.eof, d.received⟩, d.rest ++ piece) := by
    simp only [offered, List.append_nil]
    cases d.rest ++ piece with
    | nil => rfl
    | cons b r => rw [scan, step, if_pos heof]
  rw [h2] at h1
  simp only [Prod.mk.injEq, Scan.mk.injEq] at h1
  exact ⟨h1.1.2.2.symm, decide_eq_true (h1.1.2.1 ▸ heof), h1.2.symm⟩

/-- **C09.**  Take any legal history of a multiplexer and let `out` be everything it wrote.  Any
demultiplexer to which exactly those bytes were offered, in whatever pieces and with whatever reading
in between, has accepted all of them, has delivered on each stream a prefix of what was pushed there,
and reports the end exactly if the multiplexer does; in that case it has delivered everything. -/
theorem mux_round_trip (ops : List MOp) (h : legal Mux.new ops = true) :
    ∃ m out, runOps Mux.new ops = some (m, out) ∧
      ∀ dops, dlegal .new dops = true → offered dops = out →
        ∃ d, runD .new dops = some d ∧ d.rest = [] ∧ (∀ i, d.received i <+: pushed ops i) ∧
          d.m.sawEof = m.isEof ∧ (m.isEof = true → ∀ i, d.received i = pushed ops i) := by
  obtain ⟨m, out, e, hi, hr⟩ := runOps_spec ops Mux.new _ [] inv_new rel_new h
  refine ⟨m, out, e, ?_⟩
  intro dops hdl hoff
  obtain ⟨d, ed, hd⟩ := runD_spec dops .new [] dinv_new hdl
  refine ⟨d, ed, ?_⟩
  have hiff := isEof_of_rel hi hr
  obtain ⟨⟨s, hrun, hb, he, ho⟩, hdone⟩ := hr
  simp only [List.nil_append] at hrun ho
  rw [runAll_append] at hrun
  cases h1 : runAll .init out with
  | none => rw [h1] at hrun; cases hrun
  | some s1 =>
    rw [h1, Option.bind_some] at hrun
    have hsc := scan_of_runAll (r := []) h1 (by simp)
    rw [List.append_nil] at hsc
    have hds := hd.scan
    rw [List.nil_append, hoff, hsc] at hds
    simp only [Prod.mk.injEq] at hds
    obtain ⟨hs1, hrest⟩ := hds
    have hout : ∀ i, d.received i = s1.out i := fun i => by rw [hs1]
    have heq : d.m.eof = s1.eof := by rw [hs1]
    have hempty : m.eof = .done → s1 = s := by
      intro hd
      rw [hdone hd, List.take_nil] at hrun
      simpa [runAll] using hrun
    refine ⟨hrest.symm, ?_, ?_, ?_⟩
    · intro i
      rw [hout]
      exact (runAll_out_prefix hrun i).trans ⟨_, ho i⟩
    · rw [Bool.eq_iff_iff, hiff, Mux.sawEof, decide_eq_true_eq, heq]
      constructor
      · intro hs
        cases hL : (m.unread m.cur).take m.avail with
        | nil =>
          rw [hL] at hrun
          simp only [runAll, Option.some.injEq] at hrun
          rw [← he, ← hrun, hs]
        | cons b r =>
          rw [hL, runAll, step, if_pos hs] at hrun
          cases hrun
      · intro hm
        rw [hempty hm, he, hm]
    · intro hm i
      have hm' := hiff.mp hm
      rw [hout, hempty hm', ← ho i, hdone hm' i, List.drop_nil, List.append_nil]

/-- **C09 (followed by other bytes).**  If the multiplexer reported the end, the demultiplexer also
recovers everything when arbitrary bytes follow, and leaves exactly those unaccepted. -/
theorem mux_round_trip_tail (ops : List MOp) (h : legal Mux.new ops = true) :
    ∃ m out, runOps Mux.new ops = some (m, out) ∧ (m.isEof = true →
      ∀ dops tail, dlegal .new dops = true → offered dops = out ++ tail →
        ∃ d, runD .new dops = some d ∧ d.rest = tail ∧ d.m.sawEof = true ∧
          ∀ i, d.received i = pushed ops i) := by
  obtain ⟨m, out, e, hi, hr⟩ := runOps_spec ops Mux.new _ [] inv_new rel_new h
  refine ⟨m, out, e, ?_⟩
  intro hm dops tail hdl hoff
  obtain ⟨d, ed, hd⟩ := runD_spec dops .new [] dinv_new hdl
  refine ⟨d, ed, ?_⟩
  have hm' := (isEof_of_rel hi hr).mp hm
  obtain ⟨⟨s, hrun, hb, he, ho⟩, hdone⟩ := hr
  simp only [List.nil_append] at hrun ho
  rw [hdone hm', List.take_nil, List.append_nil] at hrun
  have hsc := scan_of_runAll (r := tail) hrun (by
    intro b t _
    rw [step, if_pos (he.trans hm')])
  have hds := hd.scan
  rw [List.nil_append, hoff, hsc] at hds
  simp only [Prod.mk.injEq] at hds
  obtain ⟨hs1, hrest⟩ := hds
  subst hs1
  refine ⟨hrest.symm, decide_eq_true (he.trans hm'), ?_⟩
  intro i
  have := ho i
  rw [hdone hm' i, List.drop_nil, List.append_nil] at this
  exact this

/-- **C09 (closing finishes).**  After any legal history, closing writes at most as many bytes as
there is room for, and if it leaves room then the end is reported; so closing again and again always
reaches the end. -/
theorem close_finishes (ops : List MOp) (h : legal Mux.new ops = true) (room : Nat) :
    ∃ m pre, runOps Mux.new ops = some (m, pre) ∧
      ∃ m' out, serializeClose m room = some (m', out) ∧ out.length ≤ room ∧
        (out.length < room → m'.isEof = true) := by
  obtain ⟨m, pre, e, hi, hr⟩ := runOps_spec ops Mux.new _ [] inv_new rel_new h
  obtain ⟨m', out, e', hi', hl, hrel, hfin, -⟩ := close_spec hi room
  refine ⟨m, pre, e, m', out, e', hl, fun hlt => ?_⟩
  rw [isEof_of_rel hi' (hrel _ _ hr)]
  by_cases hd : m.eof = .done
  · rw [serializeClose, if_pos hd] at e'
    cases e'
    exact hd
  · exact hfin hd hlt

/-- Serialising writes at most as many bytes as there is room for. -/
theorem serialize_bounded (ops : List MOp) (h : legal Mux.new ops = true) (room : Nat) :
    ∃ m pre, runOps Mux.new ops = some (m, pre) ∧
      ∃ m' out, serialize m room = some (m', out) ∧ out.length ≤ room := by
  obtain ⟨m, pre, e, hi, -⟩ := runOps_spec ops Mux.new _ [] inv_new rel_new h
  obtain ⟨m', out, e', htr⟩ := serialize_spec hi room
  exact ⟨m, pre, e, m', out, e', htr.len⟩

/-! ## The theorems are not vacuous -/

/-- A history with pushes on both streams, cramped outputs and a push after closing has begun. -/
def sampleOps : List MOp :=
  [.push false [1, 2, 3], .push true [4, 5], .serialize 10, .close 2, .push true [6], .close 7, .fill false [7],
   .close 3, .close 40]

example : legal Mux.new sampleOps = true := by decide +kernel

example : (runOps Mux.new sampleOps).map (fun p => (p.2, p.1.isEof)) =
    some ([0, 2, 0, 1, 2, 3, 1, 2, 0, 4, 5, 6, 0, 0, 0, 7, 0xff, 0xfe, 0xff], true) := by decide +kernel

example : pushed sampleOps true = [4, 5, 6] := by decide +kernel

/-- The bytes of `sampleOps` offered one or two at a time, with reads in between. -/
def sampleDops : List DOp :=
  [.offer [0], .offer [2, 0], .offer [1, 2], .consume false 1, .offer [3, 1, 2, 0, 4, 5, 6, 0, 0, 0, 7, 0xff],
   .take true, .recycle true [0, 0, 0, 0], .offer [0xfe], .offer [0xff]]

example : dlegal .new sampleDops = true ∧
    offered sampleDops = [0, 2, 0, 1, 2, 3, 1, 2, 0, 4, 5, 6, 0, 0, 0, 7, 0xff, 0xfe, 0xff] := by decide +kernel

example : (runD .new sampleDops).map (fun d => (d.received false, d.received true, d.m.sawEof)) =
    some ([1, 2, 3, 7], [4, 5, 6], true) := by decide +kernel

/-- A malformed stream: the second `0xff` is neither accepted nor reported as an error. -/
theorem demux_stuck : (runD .new [.offer [0xff, 0xff, 0, 0, 0]]).map
    (fun d => (d.rest, d.m.sawEof)) = some ([0xff, 0, 0, 0], false) := by decide +kernel

/-- The one entry point that is not safe: after `prealloc` the cursors start at zero, so the first
record has no room for its header and the multiplexer stops with a failed assertion. -/
theorem prealloc_then_close_fails :
    ((((Mux.new.prealloc 16).bind fun m => m.push false [1, 2, 3]).bind fun m =>
      serializeClose m 16).isNone) = true := by decide +kernel

end Divans.Mux
