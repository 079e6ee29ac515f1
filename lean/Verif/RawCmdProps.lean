import Verif.RawCmd

/-
C27: the assembler of literal commands.  Nothing is lost; but bytes already sent are sent again when,
after the ring buffer wrapped, a call does not bring enough input to reach the end of the ring.
-/
namespace Divans.RawCmd

/-- Specification: the bytes a list of commands stands for. -/
def bytesOf (cs : List Cmd) : List UInt8 :=
  cs.flatMap fun
    | .pm => []
    | .lit _ d => d

/-- What a caller can do: offer input, or flush, each with a number of free command slots. -/
inductive Op where
  /-- `stream` -/
  | stream (inp : List UInt8) (room : Nat)
  /-- `flush` -/
  | flush (room : Nat)
deriving Repr, DecidableEq

/-- One call: the state, the input taken, and the commands produced. -/
def step (s : St) : Op → Option (St × List UInt8 × List Cmd)
  | .stream inp room => (stream s inp room).map fun x => (x.1, inp.take x.2.1, x.2.2.1)
  | .flush room => (flush s room).map fun x => (x.1, [], x.2.1)

/-- A sequence of calls. -/
def run (s : St) : List Op → Option (St × List UInt8 × List Cmd)
  | [] => some (s, [], [])
  | op :: ops =>
    match step s op with
    | none => none
    | some (s', i, c) => (run s' ops).map fun x => (x.1, i ++ x.2.1, c ++ x.2.2)

/-- Bytes taken and not yet sent. -/
def content (s : St) : List UInt8 :=
  if s.out ≤ s.dec then (s.ring.take s.dec).drop s.out else s.ring.drop s.out ++ s.ring.take s.dec

/-- Indices inside the ring. -/
def Inv (s : St) : Prop := s.dec ≤ s.ring.length ∧ s.out ≤ s.ring.length

/-- How many bytes already sent a call makes pending again: a call of `stream` after the ring buffer
was sent off at least once, with the decode index not behind the output index, and less input than
there are bytes to the end of the ring. -/
def deficit (s : St) : Op → Nat
  | .stream inp _ => if s.out ≤ s.dec ∧ s.out ≠ 0 then s.ring.length - s.dec - inp.length else 0
  | .flush _ => 0

/-- The total over a sequence of calls. -/
def deficits (s : St) : List Op → Nat
  | [] => 0
  | op :: ops => deficit s op + match step s op with
    | none => 0
    | some (s', _, _) => deficits s' ops

theorem put_length {ring bs : List UInt8} {k : Nat} (h : k + bs.length ≤ ring.length) :
    (put ring k bs).length = ring.length := by
  simp only [put, List.length_append, List.length_take, List.length_drop]; omega

theorem put_take {ring bs : List UInt8} {k : Nat} (h : k ≤ ring.length) :
    (put ring k bs).take (k + bs.length) = ring.take k ++ bs := by
  rw [put, List.take_append_of_le_length (by simp; omega), List.take_of_length_le (by simp; omega)]

theorem put_drop {ring bs : List UInt8} {k m : Nat} (h : k ≤ ring.length) (hm : k + bs.length ≤ m) :
    (put ring k bs).drop m = ring.drop m := by
  rw [put, List.drop_append, List.drop_of_length_le (by simp; omega), List.nil_append,
    List.drop_drop]
  congr 1
  simp
  omega

/-- What the first copy does. -/
theorem fillEnd_spec {s : St} (h : Inv s) (inp : List UInt8) :
    ∃ s' n, fillEnd s inp = some (s', n) ∧ Inv s' ∧ n ≤ inp.length ∧
      s'.ring.length = s.ring.length ∧ s'.out = s.out ∧ s'.hdr = s.hdr ∧
      (content s').length = (content s).length + n + deficit s (.stream inp 0) ∧
      (deficit s (.stream inp 0) = 0 → content s' = content s ++ inp.take n) ∧
      (s'.dec < s'.out ∨ s'.out = 0) ∧ (s'.out = 0 → n = inp.length ∨ s'.dec = s'.ring.length) := by
  obtain ⟨ring, dec, out, hdr⟩ := s
  obtain ⟨h1, h2⟩ := h
  simp only at h1 h2
  unfold fillEnd
  by_cases hd : dec ≥ out
  · simp only [hd, if_true]
    rw [if_neg (by omega)]
    obtain ⟨n, hn⟩ : ∃ n, n = min (ring.length - dec) inp.length := ⟨_, rfl⟩
    rw [← hn]
    have hln : (inp.take n).length = n := by rw [List.length_take]; omega
    have hpl := put_length (ring := ring) (bs := inp.take n) (k := dec) (by omega)
    have hpt := put_take (ring := ring) (bs := inp.take n) (k := dec) h1
    rw [hln] at hpt
    by_cases h0 : out = 0
    · subst h0
      refine ⟨_, _, rfl, ⟨?_, ?_⟩, by omega, hpl, rfl, rfl, ?_, ?_, Or.inr rfl, ?_⟩
      · simp only [hpl]; simp; omega
      · simp
      · simp only [content, deficit]
        simp only [ne_eq, not_true_eq_false, if_false, Nat.zero_le, if_true, hpt, and_false]
        simp
        omega
      · intro _
        simp [content, hpt]
      · intro _
        simp only [hpl]
        simp
        omega
    · refine ⟨_, _, rfl, ⟨?_, ?_⟩, by omega, hpl, rfl, rfl, ?_, ?_, Or.inl ?_, ?_⟩
      · simp [h0]
      · simp only [hpl]; exact h2
      · simp only [content, deficit]
        simp only [ne_eq, h0, not_false_eq_true, if_true, hd, and_true]
        rw [if_neg (by omega)]
        simp only [List.take_zero, List.append_nil, List.length_drop, hpl, List.length_take]
        omega
      · intro hdef
        simp only [deficit] at hdef
        rw [if_pos ⟨hd, h0⟩] at hdef
        have hn' : n = ring.length - dec := by omega
        simp only [content]
        simp only [ne_eq, h0, not_false_eq_true, if_true, hd]
        rw [if_neg (by omega)]
        have : dec + n = (put ring dec (inp.take n)).length := by omega
        rw [this, List.take_length] at hpt
        rw [hpt, List.take_zero, List.append_nil, List.drop_append_of_le_length (by simp; omega)]
      · simp only [ne_eq, h0, not_false_eq_true, if_true]; omega
      · intro h; exact absurd h h0
  · rw [if_neg hd]
    refine ⟨_, _, rfl, ⟨h1, h2⟩, by omega, rfl, rfl, rfl, ?_, ?_, Or.inl (by simp only; omega), ?_⟩
    · simp only [deficit]; rw [if_neg (by omega)]; rfl
    · intro _; simp
    · intro h; simp only at h; omega

/-- What the second copy does. -/
theorem fillStart_spec {s : St} (h : Inv s) (inp : List UInt8) (hw : s.dec < s.out ∨ s.out = 0) :
    ∃ s' n, fillStart s inp = some (s', n) ∧ Inv s' ∧ n ≤ inp.length ∧
      s'.ring.length = s.ring.length ∧ s'.out = s.out ∧ s'.hdr = s.hdr ∧
      content s' = content s ++ inp.take n ∧ (s'.out ≠ 0 → n = inp.length ∨ s'.dec + 1 = s'.out) ∧
      (s.out = 0 → s' = s ∧ n = 0) := by
  obtain ⟨ring, dec, out, hdr⟩ := s
  obtain ⟨h1, h2⟩ := h
  simp only at h1 h2 hw
  unfold fillStart
  by_cases hd : dec < out
  · simp only [hd, if_true]
    obtain ⟨n, hn⟩ : ∃ n, n = min (out - 1 - dec) inp.length := ⟨_, rfl⟩
    rw [← hn, if_pos ⟨h2, by omega⟩]
    have hln : (inp.take n).length = n := by rw [List.length_take]; omega
    have hpl := put_length (ring := ring) (bs := inp.take n) (k := dec) (by omega)
    have hpt := put_take (ring := ring) (bs := inp.take n) (k := dec) h1
    have hpd := put_drop (ring := ring) (bs := inp.take n) (k := dec) (m := out) h1 (by omega)
    rw [hln] at hpt
    refine ⟨_, _, rfl, ⟨?_, ?_⟩, by omega, hpl, rfl, rfl, ?_, ?_, ?_⟩
    · simp only [hpl]; omega
    · simp only [hpl]; exact h2
    · simp only [content]
      rw [if_neg (by omega), if_neg (by omega), hpt, hpd, List.append_assoc]
    · intro _
      simp only
      omega
    · intro h; omega
  · rw [if_neg hd]
    refine ⟨_, _, rfl, ⟨h1, h2⟩, by omega, rfl, rfl, rfl, by simp, ?_, ?_⟩
    · intro h; simp only at h; omega
    · intro _; exact ⟨rfl, rfl⟩

theorem bytesOf_append (a b : List Cmd) : bytesOf (a ++ b) = bytesOf a ++ bytesOf b := by
  simp [bytesOf]

theorem piece_spec {ring : List UInt8} {k n : Nat} (h : k + n ≤ ring.length) :
    piece ring k n = some ((ring.drop k).take n) := by
  rw [piece, if_pos h]

/-- Last part of `flush`. -/
theorem flushTail_spec {s : St} (h : Inv s) (hd : s.out ≤ s.dec) (cs : List Cmd) (room : Nat) :
    ∃ s' cs' r, flushTail s cs room = some (s', cs', r) ∧ Inv s' ∧ s'.ring = s.ring ∧
      bytesOf cs' ++ content s' = bytesOf cs ++ content s ∧
      (r = .needsOutput ∨ r = .success ∧ content s' = []) ∧ (1 ≤ room → r = .success) := by
  obtain ⟨ring, dec, out, hdr⟩ := s
  obtain ⟨h1, h2⟩ := h
  simp only at h1 h2 hd
  unfold flushTail
  by_cases he : dec = out
  · subst he
    rw [if_pos rfl]
    refine ⟨_, _, _, rfl, ⟨h1, h2⟩, rfl, rfl, Or.inr ⟨rfl, ?_⟩, fun _ => rfl⟩
    simp [content]
  · rw [if_neg he]
    by_cases hr : room = 0
    · rw [if_pos hr]
      exact ⟨_, _, _, rfl, ⟨h1, h2⟩, rfl, rfl, Or.inl rfl, fun h => by omega⟩
    · rw [if_neg hr, if_neg (by simp only; omega)]
      simp only
      rw [piece_spec (by omega)]
      simp only
      rw [if_pos h1]
      refine ⟨_, _, _, rfl, ⟨h1, h1⟩, rfl, ?_, Or.inr ⟨rfl, ?_⟩, fun _ => rfl⟩
      · simp only [content, bytesOf_append]
        rw [if_pos (Nat.le_refl _), if_pos hd]
        simp only [bytesOf, List.flatMap_cons, List.flatMap_nil, List.append_nil]
        rw [List.drop_take, List.drop_take, Nat.sub_self, List.take_zero, List.append_nil]
      · simp [content]

theorem flushWrap_spec {s : St} (h : Inv s) (cs : List Cmd) {room : Nat} (hr : 1 ≤ room) :
    ∃ s' cs' r, flushWrap s cs room = some (s', cs', r) ∧ Inv s' ∧ s'.ring = s.ring ∧
      bytesOf cs' ++ content s' = bytesOf cs ++ content s ∧
      (r = .needsOutput ∨ r = .success ∧ content s' = []) ∧ (2 ≤ room → r = .success) := by
  obtain ⟨ring, dec, out, hdr⟩ := s
  obtain ⟨h1, h2⟩ := h
  simp only at h1 h2
  unfold flushWrap
  by_cases hd : dec < out
  · simp only [hd, if_true]
    rw [if_neg (by omega), if_neg (by omega : ¬ dec = ring.length)]
    have hi : Inv ⟨ring, dec, 0, hdr⟩ := ⟨h1, by simp⟩
    by_cases hn : ring.length - out = 0
    · rw [if_neg (by simpa using hn)]
      obtain ⟨s', cs', r, e, a, b, c, d, f⟩ := flushTail_spec hi (by simp) cs room
      refine ⟨s', cs', r, e, a, b, ?_, d, fun _ => f hr⟩
      rw [c]
      simp only [content]
      rw [if_pos (by simp), if_neg (by omega), List.drop_of_length_le (by omega : ring.length ≤ out)]
      simp
    · rw [if_pos hn, if_neg (by omega), piece_spec (by omega)]
      simp only
      obtain ⟨s', cs', r, e, a, b, c, d, f⟩ := flushTail_spec hi (by simp)
        (cs ++ [.lit out ((ring.drop out).take (ring.length - out))]) (room - 1)
      refine ⟨s', cs', r, e, a, b, ?_, d, fun _ => f (by omega)⟩
      rw [c]
      simp only [content, bytesOf_append]
      rw [if_pos (by simp), if_neg (by omega)]
      rw [List.take_of_length_le (l := ring.drop out) (by simp)]
      simp [bytesOf]
  · rw [if_neg hd]
    obtain ⟨s', cs', r, e, a, b, c, d, f⟩ := flushTail_spec (s := ⟨ring, dec, out, hdr⟩) ⟨h1, h2⟩
      (by simp only; omega) cs room
    exact ⟨s', cs', r, e, a, b, c, d, fun _ => f hr⟩

theorem flush_spec {s : St} (h : Inv s) (room : Nat) :
    ∃ s' cs r, flush s room = some (s', cs, r) ∧ Inv s' ∧ s'.ring = s.ring ∧
      bytesOf cs ++ content s' = content s ∧
      (r = .needsOutput ∨ r = .success ∧ content s' = []) ∧ (3 ≤ room → r = .success) := by
  unfold flush
  by_cases hr : room = 0
  · rw [if_pos hr]
    exact ⟨_, _, _, rfl, h, rfl, by simp [bytesOf], Or.inl rfl, fun h => by omega⟩
  · rw [if_neg hr]
    by_cases hh : s.hdr = false
    · rw [if_pos hh]
      have hc : ∀ x, content { s with hdr := x } = content s := fun _ => rfl
      by_cases hr' : room - 1 = 0
      · rw [if_pos hr']
        exact ⟨_, _, _, rfl, h, rfl, by rw [hc]; simp [bytesOf], Or.inl rfl, fun h => by omega⟩
      · rw [if_neg hr']
        obtain ⟨s', cs', r, e, a, b, c, d, f⟩ := flushWrap_spec (s := { s with hdr := true }) h
          [.pm] (room := room - 1) (by omega)
        refine ⟨s', cs', r, e, a, b, ?_, d, fun _ => f (by omega)⟩
        rw [c, hc]; simp [bytesOf]
    · rw [if_neg hh]
      obtain ⟨s', cs', r, e, a, b, c, d, f⟩ := flushWrap_spec h [] (room := room) (by omega)
      refine ⟨s', cs', r, e, a, b, ?_, d, fun _ => f (by omega)⟩
      rw [c]; simp [bytesOf]

/-- The end of `stream`. -/
theorem finish_spec {s : St} (h : Inv s) {left room : Nat} (hl : left = 0 ∨ full s = true) :
    ∃ s' cs r, finish s left room = some (s', cs, r) ∧ Inv s' ∧ s'.ring = s.ring ∧
      bytesOf cs ++ content s' = content s := by
  unfold finish
  by_cases hc : 0 < room ∧ full s = true
  · rw [if_pos hc]
    obtain ⟨s', cs, r, e, a, b, c, -, -⟩ := flush_spec h room
    rw [e]
    cases r <;> exact ⟨_, _, _, rfl, a, b, c⟩
  · rw [if_neg hc]
    by_cases hr : room = 0
    · rw [if_pos hr]
      exact ⟨_, _, _, rfl, h, rfl, by simp [bytesOf]⟩
    · rw [if_neg hr, if_pos (by
        rcases hl with hl | hl
        · exact hl
        · exact absurd ⟨by omega, hl⟩ hc)]
      exact ⟨_, _, _, rfl, h, rfl, by simp [bytesOf]⟩

theorem stream_spec {s : St} (h : Inv s) (inp : List UInt8) (room : Nat) :
    ∃ s' n cs r, stream s inp room = some (s', n, cs, r) ∧ Inv s' ∧ n ≤ inp.length ∧
      s'.ring.length = s.ring.length ∧
      (bytesOf cs ++ content s').length = (content s).length + n + deficit s (.stream inp room) ∧
      (deficit s (.stream inp room) = 0 →
        bytesOf cs ++ content s' = content s ++ inp.take n) := by
  obtain ⟨s1, n1, e1, i1, l1, r1, o1, hd1, c1, c1', w1, f1⟩ := fillEnd_spec h inp
  obtain ⟨s2, n2, e2, i2, l2, r2, o2, hd2, c2, f2, f2'⟩ := fillStart_spec i1 (inp.drop n1) w1
  rw [List.length_drop] at l2 f2
  have hfull : inp.length - (n1 + n2) = 0 ∨ full s2 = true := by
    by_cases h0 : s1.out = 0
    · obtain ⟨rfl, rfl⟩ := f2' h0
      rcases f1 h0 with h | h
      · left; omega
      · right; simp [full, h]
    · rcases f2 (by rw [o2]; exact h0) with h | h
      · left; omega
      · right; simp [full, h]
  obtain ⟨s3, cs, r, e3, i3, r3, c3⟩ := finish_spec (room := room) i2 hfull
  have hdef : deficit s (.stream inp room) = deficit s (.stream inp 0) := rfl
  have ht : (inp.drop n1).take n2 = (inp.drop n1).take n2 := rfl
  refine ⟨s3, n1 + n2, cs, r, ?_, i3, by omega, by rw [r3, r2, r1], ?_, ?_⟩
  · unfold stream
    simp only [e1, e2, e3]
  · rw [c3, c2, List.length_append, c1, List.length_take, List.length_drop, hdef]
    omega
  · intro hz
    rw [c3, c2, c1' (hdef ▸ hz), List.append_assoc, List.take_add]

/-- One call: no panic; the bytes sent and pending grow by the input taken and by the deficit. -/
theorem step_spec {s : St} (h : Inv s) (op : Op) :
    ∃ s' i cs, step s op = some (s', i, cs) ∧ Inv s' ∧ s'.ring.length = s.ring.length ∧
      (bytesOf cs ++ content s').length = (content s).length + i.length + deficit s op ∧
      (deficit s op = 0 → bytesOf cs ++ content s' = content s ++ i) := by
  cases op with
  | stream inp room =>
    obtain ⟨s', n, cs, r, e, a, b, c, d, f⟩ := stream_spec h inp room
    refine ⟨s', inp.take n, cs, by simp only [step, e, Option.map_some], a, c, ?_, f⟩
    rw [d, List.length_take, Nat.min_eq_left b]
  | flush room =>
    obtain ⟨s', cs, r, e, a, b, c, -, -⟩ := flush_spec h room
    refine ⟨s', [], cs, by simp only [step, e, Option.map_some], a, by rw [b], ?_, ?_⟩
    · rw [c]; simp [deficit]
    · intro _; rw [c]; simp

theorem run_spec {s : St} (h : Inv s) (ops : List Op) :
    ∃ s' i cs, run s ops = some (s', i, cs) ∧ Inv s' ∧
      (bytesOf cs ++ content s').length = (content s).length + i.length + deficits s ops ∧
      (deficits s ops = 0 → bytesOf cs ++ content s' = content s ++ i) := by
  induction ops generalizing s with
  | nil => exact ⟨s, [], [], rfl, h, by simp [bytesOf, deficits], fun _ => by simp [bytesOf]⟩
  | cons op ops ih =>
    obtain ⟨s1, i1, cs1, e1, a1, -, b1, c1⟩ := step_spec h op
    obtain ⟨s2, i2, cs2, e2, a2, b2, c2⟩ := ih a1
    have hd : deficits s (op :: ops) = deficit s op + deficits s1 ops := by
      simp only [deficits, e1]
    refine ⟨s2, i1 ++ i2, cs1 ++ cs2, by simp only [run, e1, e2, Option.map_some], a2, ?_, ?_⟩
    · rw [hd]
      simp only [bytesOf_append, List.length_append] at *
      omega
    · intro hz
      rw [hd] at hz
      rw [bytesOf_append, List.append_assoc, c2 (by omega), ← List.append_assoc, c1 (by omega),
        List.append_assoc]

theorem inv_new (ring : List UInt8) : Inv (new ring) := ⟨Nat.zero_le _, Nat.zero_le _⟩

/-- A complete history: a sequence of calls from a new assembler, the last of which is a successful
`flush`.  `inp` is the input it took, `cs` the commands it produced. -/
def Complete (ring : List UInt8) (ops : List Op) (inp : List UInt8) (cs : List Cmd) : Prop :=
  ∃ s cs1 room s' cs2, run (new ring) ops = some (s, inp, cs1) ∧
    flush s room = some (s', cs2, .success) ∧ cs = cs1 ++ cs2

/-- No call of the assembler panics, for any ring, input, cuts and command slots. -/
theorem never_panics (ring : List UInt8) (ops : List Op) : (run (new ring) ops).isSome := by
  obtain ⟨s', i, cs, e, -⟩ := run_spec (inv_new ring) ops
  rw [e]; rfl

/-- A flush with three free command slots always succeeds, so every history can be completed. -/
theorem flush_completes (ring : List UInt8) (ops : List Op) :
    ∃ inp cs, Complete ring ops inp cs := by
  obtain ⟨s, i, cs, e, a, -⟩ := run_spec (inv_new ring) ops
  obtain ⟨s', cs', r, e', -, -, -, -, hr⟩ := flush_spec a 3
  rw [hr (by omega)] at e'
  exact ⟨i, cs ++ cs', s, cs, 3, s', cs', e, e', rfl⟩

/-- The number of bytes sent in a complete history: those taken, and the ones sent twice. -/
theorem bytes_sent {ring : List UInt8} {ops : List Op} {inp : List UInt8} {cs : List Cmd}
    (h : Complete ring ops inp cs) :
    (bytesOf cs).length = inp.length + deficits (new ring) ops ∧
      (deficits (new ring) ops = 0 → bytesOf cs = inp) := by
  obtain ⟨s, cs1, room, s', cs2, e, e', rfl⟩ := h
  obtain ⟨s1, i1, cs1', e1, a, b, c⟩ := run_spec (inv_new ring) ops
  rw [e] at e1
  cases e1
  obtain ⟨s2, cs2', r, e2, -, -, b2, c2, -⟩ := flush_spec a room
  rw [e'] at e2
  cases e2
  have hc : content s' = [] := by
    rcases c2 with h | h
    · exact absurd h (by decide)
    · exact h.2
  rw [hc, List.append_nil] at b2
  have h0 : content (new ring) = [] := by simp [content, new]
  rw [h0] at b c
  rw [bytesOf_append, b2]
  exact ⟨by rw [b]; simp, fun hz => by rw [c hz]; simp⟩

/-- **C27, exactly.** For every ring buffer, every input, every way of cutting it into calls and every
number of command slots: the literals of a complete history concatenate to exactly the input taken if
and only if no call of `stream` came, after the ring had been sent off, with less input than there are
bytes left to the end of the ring. -/
theorem raw_lossless_iff {ring : List UInt8} {ops : List Op} {inp : List UInt8} {cs : List Cmd}
    (h : Complete ring ops inp cs) : bytesOf cs = inp ↔ deficits (new ring) ops = 0 := by
  obtain ⟨a, b⟩ := bytes_sent h
  constructor
  · intro he
    rw [he] at a
    omega
  · exact b

/-- Only `stream` calls. -/
def OnlyStreams (ops : List Op) : Prop := ∀ op ∈ ops, ∃ inp room, op = .stream inp room

/-- States before the ring buffer is used a second time; `t` bytes were taken so far. -/
def FirstRound (s : St) (t : Nat) : Prop :=
  (s.out = 0 ∧ s.dec = t) ∨ (s.out = s.ring.length ∧ (s.dec = s.ring.length ∨ s.dec = 0) ∧
    t = s.ring.length) ∨ s.ring.length < t

theorem full_iff (s : St) : full s = true ↔ s.dec = s.ring.length ∨ s.dec + 1 = s.out := by
  simp [full]

/-- Flushing a ring filled from its start. -/
theorem flush_first {ring : List UInt8} {hdr : Bool} (h2 : 2 ≤ ring.length) (room : Nat)
    {s' : St} {cs : List Cmd} {r : Res} (h : flush ⟨ring, ring.length, 0, hdr⟩ room = some (s', cs, r)) :
    s'.ring = ring ∧ s'.dec = ring.length ∧ (s'.out = 0 ∨ s'.out = ring.length) := by
  have hw : ∀ (hdr : Bool) (cs0 : List Cmd) (room : Nat), 1 ≤ room →
      flushWrap ⟨ring, ring.length, 0, hdr⟩ cs0 room
        = some (⟨ring, ring.length, ring.length, hdr⟩, cs0 ++ [.lit 0 ring], .success) := by
    intro hdr cs0 room hr
    unfold flushWrap
    rw [if_neg (by simp)]
    unfold flushTail
    rw [if_neg (by simp only; omega), if_neg (by omega), if_neg (by simp)]
    simp only
    rw [piece_spec (by omega)]
    simp
  unfold flush at h
  by_cases hr : room = 0
  · rw [if_pos hr] at h; cases h; exact ⟨rfl, rfl, Or.inl rfl⟩
  · rw [if_neg hr] at h
    by_cases hh : hdr = false
    · rw [if_pos hh] at h
      by_cases hr' : room - 1 = 0
      · rw [if_pos hr'] at h; cases h; exact ⟨rfl, rfl, Or.inl rfl⟩
      · rw [if_neg hr', hw _ _ _ (by omega)] at h
        cases h; exact ⟨rfl, rfl, Or.inr rfl⟩
    · rw [if_neg hh, hw _ _ _ (by omega)] at h
      cases h; exact ⟨rfl, rfl, Or.inr rfl⟩

theorem firstRound_step {s : St} {t : Nat} (hi : Inv s) (h2 : 2 ≤ s.ring.length)
    (h : FirstRound s t) {inp : List UInt8} {room : Nat} {s' : St} {i : List UInt8} {cs : List Cmd}
    (hs : step s (.stream inp room) = some (s', i, cs)) : FirstRound s' (t + i.length) := by
  obtain ⟨s1, n, cs1, r, e, -, hn, hl, -, -⟩ := stream_spec hi inp room
  simp only [step, e, Option.map_some, Option.some.injEq, Prod.mk.injEq] at hs
  obtain ⟨rfl, rfl, rfl⟩ := hs
  rw [List.length_take, Nat.min_eq_left hn]
  obtain ⟨ring, dec, out, hdr⟩ := s
  simp only at h2 hl
  rcases h with ⟨h0, hd⟩ | ⟨h0, hd, ht⟩ | h
  · simp only at h0 hd
    subst h0 hd
    obtain ⟨hi1, -⟩ := hi
    simp only at hi1
    unfold stream fillEnd at e
    simp only [ge_iff_le, Nat.zero_le, if_true] at e
    rw [if_neg (by omega)] at e
    simp only [ne_eq, not_true_eq_false, if_false] at e
    obtain ⟨m, hm⟩ : ∃ m, m = min (ring.length - dec) inp.length := ⟨_, rfl⟩
    rw [← hm] at e
    have hln : (inp.take m).length = m := by rw [List.length_take]; omega
    have hpl := put_length (ring := ring) (bs := inp.take m) (k := dec) (by omega)
    obtain ⟨ring', hr'⟩ : ∃ ring', ring' = put ring dec (inp.take m) := ⟨_, rfl⟩
    rw [← hr'] at e hpl
    unfold fillStart at e
    simp only [Nat.not_lt_zero, if_false, Nat.add_zero] at e
    unfold finish at e
    by_cases hc : 0 < room ∧ full ⟨ring', dec + m, 0, hdr⟩ = true
    · rw [if_pos hc] at e
      have hdm : dec + m = ring'.length := by
        have := (full_iff _).mp hc.2
        simp only at this
        omega
      cases hf : flush ⟨ring', dec + m, 0, hdr⟩ room with
      | none => rw [hf] at e; simp at e
      | some x =>
        obtain ⟨s2, cs2, r2⟩ := x
        rw [hf] at e
        rw [hdm] at hf
        obtain ⟨a, b, c⟩ := flush_first (by omega) room hf
        have hs2 : s1 = s2 ∧ n = m := by
          cases r2 <;> simp only [Option.some.injEq, Prod.mk.injEq] at e <;> exact ⟨e.1.symm, e.2.1.symm⟩
        obtain ⟨rfl, rfl⟩ := hs2
        rcases c with c | c
        · left; exact ⟨c, by rw [b]; omega⟩
        · right; left; rw [a]; exact ⟨c, Or.inl b, by omega⟩
    · rw [if_neg hc] at e
      have : s1 = ⟨ring', dec + m, 0, hdr⟩ ∧ n = m := by
        by_cases hr : room = 0
        · rw [if_pos hr] at e
          simp only [Option.some.injEq, Prod.mk.injEq] at e
          exact ⟨e.1.symm, e.2.1.symm⟩
        · rw [if_neg hr] at e
          by_cases hz : inp.length - m = 0
          · rw [if_pos hz] at e
            simp only [Option.some.injEq, Prod.mk.injEq] at e
            exact ⟨e.1.symm, e.2.1.symm⟩
          · rw [if_neg hz] at e; simp at e
      obtain ⟨rfl, rfl⟩ := this
      left; exact ⟨rfl, rfl⟩
  · simp only at h0 hd ht
    subst h0
    by_cases hn0 : n = 0
    · right; left
      subst hn0
      rw [hl]
      unfold stream at e
      have hfe : fillEnd ⟨ring, dec, ring.length, hdr⟩ inp = some (⟨ring, 0, ring.length, hdr⟩, 0) := by
        unfold fillEnd
        rcases hd with rfl | rfl
        · simp only [ge_iff_le, Nat.le_refl, if_true]
          rw [if_neg (by omega)]
          have h0 : ¬ ring.length = 0 := by omega
          simp only [Nat.sub_self, Nat.zero_min, List.take_zero, ne_eq, h0, not_false_eq_true, if_true]
          simp [put]
        · rw [if_neg (by simp only; omega)]
      rw [hfe] at e
      simp only [List.drop_zero] at e
      have hfs : fillStart ⟨ring, 0, ring.length, hdr⟩ inp
          = some (⟨put ring 0 (inp.take (min (ring.length - 1 - 0) inp.length)),
              0 + min (ring.length - 1 - 0) inp.length, ring.length, hdr⟩,
            min (ring.length - 1 - 0) inp.length) := by
        unfold fillStart
        rw [if_pos (by simp only; omega)]
        simp only
        rw [if_pos ⟨Nat.le_refl _, by omega⟩]
      rw [hfs] at e
      simp only at e
      have hm : min (ring.length - 1 - 0) inp.length = 0 := by
        cases hf : finish ⟨put ring 0 (inp.take (min (ring.length - 1 - 0) inp.length)),
              0 + min (ring.length - 1 - 0) inp.length, ring.length, hdr⟩
              (inp.length - (0 + min (ring.length - 1 - 0) inp.length)) room with
        | none => rw [hf] at e; simp at e
        | some x => rw [hf] at e; simp only [Option.some.injEq, Prod.mk.injEq] at e; omega
      rw [hm] at e
      have hp : put ring 0 (inp.take 0) = ring := by simp [put]
      rw [hp] at e
      unfold finish at e
      rw [if_neg (by rw [full_iff]; simp only; omega)] at e
      have : s1 = ⟨ring, 0, ring.length, hdr⟩ := by
        by_cases hr : room = 0
        · rw [if_pos hr] at e
          simp only [Option.some.injEq, Prod.mk.injEq] at e
          exact e.1.symm
        · rw [if_neg hr] at e
          rw [if_pos (by omega)] at e
          simp only [Option.some.injEq, Prod.mk.injEq] at e
          exact e.1.symm
      subst this
      exact ⟨rfl, Or.inr rfl, by omega⟩
    · right; right
      rw [hl]; omega
  · right; right
    simp only at h
    rw [hl]; omega

theorem firstRound_deficits {s : St} {t : Nat} (hi : Inv s) (h2 : 2 ≤ s.ring.length)
    (h : FirstRound s t) {ops : List Op} (ho : OnlyStreams ops) {s' : St} {i : List UInt8}
    {cs : List Cmd} (hr : run s ops = some (s', i, cs)) (hl : t + i.length ≤ s.ring.length) :
    deficits s ops = 0 := by
  induction ops generalizing s t i cs with
  | nil => rfl
  | cons op ops ih =>
    obtain ⟨inp, room, rfl⟩ := ho op (by simp)
    obtain ⟨s1, i1, cs1, e1, a1, l1, -, -⟩ := step_spec hi (.stream inp room)
    have h1 := firstRound_step hi h2 h e1
    simp only [run, e1] at hr
    obtain ⟨s2, i2, cs2, e2, -⟩ := run_spec a1 ops
    rw [e2] at hr
    simp only [Option.map_some, Option.some.injEq, Prod.mk.injEq] at hr
    obtain ⟨rfl, rfl, rfl⟩ := hr
    rw [List.length_append] at hl
    simp only [deficits, e1]
    rw [ih a1 (by omega) h1 (fun op h => ho op (by simp [h])) e2 (by omega)]
    obtain ⟨hd1, hd2⟩ := hi
    rcases h with ⟨h0, -⟩ | ⟨h0, h, -⟩ | h
    · simp [deficit, h0]
    · simp only [deficit]
      rcases h with h | h
      · rw [h]; simp
      · rw [h, if_neg (by omega)]
    · omega

/-- **C27, the part that holds for every caller.** Input no longer than the ring buffer (2^window
bytes), offered in any pieces and with any number of free command slots, and flushed at the end: the
literals concatenate to exactly the input.  Missing: longer inputs, for which it is false in general
(`raw_not_lossless`), and true under the condition of `raw_lossless_iff`. -/
theorem raw_lossless_partial {ring : List UInt8} (h2 : 2 ≤ ring.length) {ops : List Op}
    (ho : OnlyStreams ops) {inp : List UInt8} {cs : List Cmd} (h : Complete ring ops inp cs)
    (hl : inp.length ≤ ring.length) : bytesOf cs = inp := by
  rw [raw_lossless_iff h]
  obtain ⟨s, cs1, room, s', cs2, e, -, -⟩ := h
  exact firstRound_deficits (inv_new ring) h2 (t := 0) (Or.inl ⟨rfl, rfl⟩) ho e (by simpa [new] using hl)

/-- The first call with enough input fills the ring and sends it off. -/
theorem first_call {ring : List UInt8} (h2 : 2 ≤ ring.length) {inp : List UInt8}
    (hl : ring.length ≤ inp.length) :
    ∃ ring' cs, step (new ring) (.stream inp 16)
      = some (⟨ring', ring.length, ring.length, true⟩, inp.take ring.length, cs) ∧
      ring'.length = ring.length := by
  have hln : (inp.take ring.length).length = ring.length := by rw [List.length_take]; omega
  obtain ⟨ring', hr'⟩ : ∃ ring', ring' = put ring 0 (inp.take ring.length) := ⟨_, rfl⟩
  have hpl : ring'.length = ring.length := by rw [hr']; exact put_length (by omega)
  refine ⟨ring', [.pm, .lit 0 ring'], ?_, hpl⟩
  have h1 : fillEnd (new ring) inp = some (⟨ring', ring.length, 0, false⟩, ring.length) := by
    unfold fillEnd new
    simp only [ge_iff_le, Nat.le_refl, if_true]
    rw [if_neg (by omega), Nat.sub_zero, Nat.min_eq_left hl, ← hr']
    simp
  have h3 : fillStart ⟨ring', ring.length, 0, false⟩ (inp.drop ring.length)
      = some (⟨ring', ring.length, 0, false⟩, 0) := by
    unfold fillStart
    rw [if_neg (by simp)]
  have h4 : flush ⟨ring', ring.length, 0, false⟩ 16
      = some (⟨ring', ring.length, ring.length, true⟩, [.pm, .lit 0 ring'], .success) := by
    unfold flush
    rw [if_neg (by omega), if_pos rfl, if_neg (by omega)]
    unfold flushWrap
    rw [if_neg (by simp)]
    unfold flushTail
    rw [if_neg (by simp only; omega), if_neg (by omega), if_neg (by simp)]
    simp only
    rw [piece_spec (by omega)]
    simp only
    rw [if_pos (by omega)]
    simp [← hpl]
  simp only [step, stream, h1, h3, Nat.add_zero]
  unfold finish
  rw [if_pos ⟨by omega, by rw [full_iff]; left; exact hpl.symm⟩, h4]
  rfl

/-- A later call with enough input: one byte less than the ring is taken and sent off, and both
indices move one byte back. -/
theorem later_call {ring : List UInt8} {k : Nat} (hk : 2 ≤ k) (hk' : k ≤ ring.length)
    {inp : List UInt8} (hl : ring.length - 1 ≤ inp.length) :
    ∃ ring' cs, step ⟨ring, k, k, true⟩ (.stream inp 16)
      = some (⟨ring', k - 1, k - 1, true⟩, inp.take (ring.length - 1), cs) ∧
      ring'.length = ring.length := by
  obtain ⟨r1, hr1⟩ : ∃ r1, r1 = put ring k (inp.take (ring.length - k)) := ⟨_, rfl⟩
  have hl1 : (inp.take (ring.length - k)).length = ring.length - k := by rw [List.length_take]; omega
  have hp1 : r1.length = ring.length := by rw [hr1]; exact put_length (by omega)
  have h1 : fillEnd ⟨ring, k, k, true⟩ inp = some (⟨r1, 0, k, true⟩, ring.length - k) := by
    unfold fillEnd
    rw [if_pos (by simp), if_neg (by simp only; omega)]
    simp only
    rw [Nat.min_eq_left (by omega), ← hr1, if_pos (by omega)]
  obtain ⟨r2, hr2⟩ : ∃ r2, r2 = put r1 0 ((inp.drop (ring.length - k)).take (k - 1)) := ⟨_, rfl⟩
  have hl2 : ((inp.drop (ring.length - k)).take (k - 1)).length = k - 1 := by
    rw [List.length_take, List.length_drop]; omega
  have hp2 : r2.length = ring.length := by rw [hr2, put_length (by omega), hp1]
  have h3 : fillStart ⟨r1, 0, k, true⟩ (inp.drop (ring.length - k))
      = some (⟨r2, k - 1, k, true⟩, k - 1) := by
    unfold fillStart
    rw [if_pos (by simp only; omega)]
    simp only
    rw [Nat.sub_zero, Nat.min_eq_left (by rw [List.length_drop]; omega), if_pos (by omega), ← hr2,
      Nat.zero_add]
  have h4 : ∃ cs, flush ⟨r2, k - 1, k, true⟩ 16
      = some (⟨r2, k - 1, k - 1, true⟩, cs, .success) := by
    have ht : ∀ cs0 room, 1 ≤ room → ∃ cs, flushTail ⟨r2, k - 1, 0, true⟩ cs0 room
        = some (⟨r2, k - 1, k - 1, true⟩, cs, .success) := by
      intro cs0 room hr
      unfold flushTail
      rw [if_neg (by simp only; omega), if_neg (by omega), if_neg (by simp)]
      simp only
      rw [piece_spec (by omega)]
      simp only
      rw [if_pos (by omega)]
      exact ⟨_, rfl⟩
    unfold flush
    rw [if_neg (by omega), if_neg (by simp)]
    unfold flushWrap
    rw [if_pos (by simp only; omega), if_neg (by simp only; omega)]
    simp only
    rw [if_neg (by omega : ¬ k - 1 = r2.length)]
    by_cases hz : r2.length - k = 0
    · rw [if_neg (by simpa using hz)]
      exact ht _ _ (by omega)
    · rw [if_pos hz, if_neg (by omega), piece_spec (by omega)]
      exact ht _ _ (by omega)
  obtain ⟨cs, h4⟩ := h4
  refine ⟨r2, cs, ?_, hp2⟩
  simp only [step, stream, h1, h3]
  unfold finish
  rw [if_pos ⟨by omega, by rw [full_iff]; right; simp only; omega⟩, h4]
  simp only [Option.map_some, Option.some.injEq, Prod.mk.injEq, true_and, and_true]
  rw [show ring.length - k + (k - 1) = ring.length - 1 by omega]

/-- A later call with less input than there is to the end of the ring takes all of it. -/
theorem short_call {ring : List UInt8} {k : Nat} (hk : 2 ≤ k) (hk' : k ≤ ring.length)
    {inp : List UInt8} (hl : inp.length < ring.length - k) :
    ∃ s cs, step ⟨ring, k, k, true⟩ (.stream inp 16) = some (s, inp, cs) ∧
      deficit ⟨ring, k, k, true⟩ (.stream inp 16) = ring.length - k - inp.length := by
  obtain ⟨s', n, cs, r, e, -, hn, -, -, -⟩ :=
    stream_spec (s := ⟨ring, k, k, true⟩) ⟨hk', hk'⟩ inp 16
  refine ⟨s', cs, ?_, ?_⟩
  · simp only [step, e, Option.map_some, Option.some.injEq, Prod.mk.injEq, true_and, and_true]
    obtain ⟨s1, n1, e1, -, l1, -⟩ := fillEnd_spec (s := ⟨ring, k, k, true⟩) ⟨hk', hk'⟩ inp
    have hn1 : n1 = inp.length := by
      unfold fillEnd at e1
      rw [if_pos (by simp), if_neg (by simp only; omega)] at e1
      simp only [Option.some.injEq, Prod.mk.injEq] at e1
      rw [← e1.2]; omega
    rw [List.take_of_length_le]
    unfold stream at e
    rw [e1] at e
    simp only at e
    cases h2 : fillStart s1 (inp.drop n1) with
    | none => rw [h2] at e; simp at e
    | some x =>
      obtain ⟨s2, n2⟩ := x
      rw [h2] at e
      simp only at e
      cases h3 : finish s2 (inp.length - (n1 + n2)) 16 with
      | none => rw [h3] at e; simp at e
      | some y =>
        rw [h3] at e
        simp only [Option.some.injEq, Prod.mk.injEq] at e
        omega
  · simp only [deficit]
    rw [if_pos ⟨Nat.le_refl _, by omega⟩]

/-- **C27 is false.** For every ring buffer of at least four bytes and every input of exactly three
times its size less one byte, offered in one piece (each call gets all that is left, and plenty of
command slots) and flushed: the assembler takes all of it, and sends one byte too many. -/
theorem raw_not_lossless (ring : List UInt8) (h4 : 4 ≤ ring.length) (inp : List UInt8)
    (hl : inp.length = 3 * ring.length - 1) :
    ∃ cs, Complete ring [.stream inp 16, .stream (inp.drop ring.length) 16,
        .stream (inp.drop (2 * ring.length - 1)) 16, .stream (inp.drop (3 * ring.length - 2)) 16] inp cs ∧
      (bytesOf cs).length = inp.length + 1 ∧ bytesOf cs ≠ inp := by
  obtain ⟨r1, c1, e1, l1⟩ := first_call (ring := ring) (by omega) (inp := inp) (by omega)
  obtain ⟨r2, c2, e2, l2⟩ := later_call (ring := r1) (k := ring.length) (by omega) (by omega)
    (inp := inp.drop ring.length) (by rw [List.length_drop]; omega)
  obtain ⟨r3, c3, e3, l3⟩ := later_call (ring := r2) (k := ring.length - 1) (by omega) (by omega)
    (inp := inp.drop (2 * ring.length - 1)) (by rw [List.length_drop]; omega)
  obtain ⟨s4, c4, e4, d4⟩ := short_call (ring := r3) (k := ring.length - 1 - 1) (by omega) (by omega)
    (inp := inp.drop (3 * ring.length - 2)) (by rw [List.length_drop]; omega)
  rw [List.length_drop] at d4
  obtain ⟨inp', cs, hc⟩ := flush_completes ring [.stream inp 16, .stream (inp.drop ring.length) 16,
    .stream (inp.drop (2 * ring.length - 1)) 16, .stream (inp.drop (3 * ring.length - 2)) 16]
  have hin : inp' = inp := by
    obtain ⟨s, cs1, room, s', cs2, e, -, -⟩ := hc
    simp only [run, e1, e2, e3, e4, Option.map_some, Option.some.injEq, Prod.mk.injEq] at e
    rw [← e.2.1, l1, l2, List.append_nil]
    have a : (inp.drop (2 * ring.length - 1)).take (ring.length - 1) ++ inp.drop (3 * ring.length - 2)
        = inp.drop (2 * ring.length - 1) := by
      rw [show 3 * ring.length - 2 = (2 * ring.length - 1) + (ring.length - 1) by omega,
        ← List.drop_drop, List.take_append_drop]
    have b : (inp.drop ring.length).take (ring.length - 1) ++ inp.drop (2 * ring.length - 1)
        = inp.drop ring.length := by
      rw [show 2 * ring.length - 1 = ring.length + (ring.length - 1) by omega,
        ← List.drop_drop, List.take_append_drop]
    rw [l1, a, b, List.take_append_drop]
  subst hin
  have hd : deficits (new ring) [.stream inp' 16, .stream (inp'.drop ring.length) 16,
    .stream (inp'.drop (2 * ring.length - 1)) 16, .stream (inp'.drop (3 * ring.length - 2)) 16] = 1 := by
    simp only [deficits, e1, e2, e3, e4, d4]
    simp only [deficit, new, ne_eq, not_true_eq_false, and_false, if_false, l1, l2, l3,
      List.length_drop]
    rw [if_pos (by omega), if_pos (by omega)]
    have x1 : ring.length - ring.length - (inp'.length - ring.length) = 0 := by omega
    have x2 : ring.length - (ring.length - 1) - (inp'.length - (2 * ring.length - 1)) = 0 := by omega
    have x3 : ring.length - (ring.length - 1 - 1) - (inp'.length - (3 * ring.length - 2)) = 1 := by
      have : ring.length - (ring.length - 1 - 1) = 2 := by omega
      omega
    rw [x1, x2, x3]
  obtain ⟨a, b⟩ := bytes_sent hc
  refine ⟨cs, hc, by omega, ?_⟩
  intro h
  rw [h] at a
  omega

/-- What the commands of one call look like: the prediction mode command comes first if it has not been
sent before (and there is room for it), and literals follow. -/
def Shape (before after : Bool) (cs : List Cmd) : Prop :=
  (before = after ∧ Cmd.pm ∉ cs) ∨ (before = false ∧ after = true ∧ ∃ t, cs = .pm :: t ∧ Cmd.pm ∉ t)

theorem flushTail_shape {s s' : St} {cs cs' : List Cmd} {room : Nat} {r : Res}
    (e : flushTail s cs room = some (s', cs', r)) :
    s'.hdr = s.hdr ∧ ∃ t, cs' = cs ++ t ∧ Cmd.pm ∉ t := by
  unfold flushTail at e
  split at e
  · cases e; exact ⟨rfl, [], by simp, by simp⟩
  · split at e
    · cases e; exact ⟨rfl, [], by simp, by simp⟩
    · split at e
      · cases e
      · split at e
        · cases e
        · split at e
          · cases e; exact ⟨rfl, _, rfl, by simp⟩
          · cases e

theorem flushWrap_shape {s s' : St} {cs cs' : List Cmd} {room : Nat} {r : Res}
    (e : flushWrap s cs room = some (s', cs', r)) :
    s'.hdr = s.hdr ∧ ∃ t, cs' = cs ++ t ∧ Cmd.pm ∉ t := by
  unfold flushWrap at e
  split at e
  · split at e
    · cases e
    · simp only at e
      split at e
      · split at e
        · cases e
        · split at e
          · cases e
          · obtain ⟨a, t, b, c⟩ := flushTail_shape e
            exact ⟨a, _, by rw [b, List.append_assoc], by simp [c]⟩
      · have := flushTail_shape e
        exact this
  · exact flushTail_shape e

theorem flush_shape {s s' : St} {cs : List Cmd} {room : Nat} {r : Res}
    (e : flush s room = some (s', cs, r)) : Shape s.hdr s'.hdr cs := by
  unfold flush at e
  split at e
  · cases e; exact Or.inl ⟨rfl, by simp⟩
  · split at e
    · rename_i hh
      split at e
      · cases e; exact Or.inr ⟨hh, rfl, [], rfl, by simp⟩
      · obtain ⟨a, t, b, c⟩ := flushWrap_shape e
        exact Or.inr ⟨hh, a, t, b, c⟩
    · obtain ⟨a, t, b, c⟩ := flushWrap_shape e
      exact Or.inl ⟨a.symm, by rw [b]; simpa using c⟩

theorem stream_shape {s s' : St} {n : Nat} {inp : List UInt8} {cs : List Cmd} {room : Nat} {r : Res}
    (h : Inv s) (e : stream s inp room = some (s', n, cs, r)) :
    Shape s.hdr s'.hdr cs ∧ (r = .needsInput → n = inp.length) ∧ r ≠ .success ∧
      (r = .needsOutput → 3 ≤ room → n < inp.length) := by
  obtain ⟨s1, n1, e1, i1, l1, -, -, hd1, -, -, w1, -⟩ := fillEnd_spec h inp
  obtain ⟨s2, n2, e2, i2, l2, -, -, hd2, -, -, -⟩ := fillStart_spec i1 (inp.drop n1) w1
  rw [List.length_drop] at l2
  unfold stream at e
  simp only [e1, e2] at e
  rw [← hd1, ← hd2]
  unfold finish at e
  by_cases hc : 0 < room ∧ full s2 = true
  · rw [if_pos hc] at e
    obtain ⟨s3, cs3, r3, e3, -, -, -, -, f3⟩ := flush_spec i2 room
    rw [e3] at e
    cases r3 with
    | needsOutput =>
      cases e
      exact ⟨flush_shape e3, by simp, by simp, fun _ hr => by simpa using f3 hr⟩
    | success =>
      simp only at e
      by_cases hl : inp.length - (n1 + n2) ≠ 0
      · rw [if_pos hl] at e
        cases e
        exact ⟨flush_shape e3, by simp, by simp, fun _ _ => by omega⟩
      · rw [if_neg hl] at e
        cases e
        exact ⟨flush_shape e3, fun _ => by omega, by simp, by simp⟩
    | needsInput =>
      simp only at e
      by_cases hl : inp.length - (n1 + n2) ≠ 0
      · rw [if_pos hl] at e
        cases e
        exact ⟨flush_shape e3, by simp, by simp, fun _ _ => by omega⟩
      · rw [if_neg hl] at e
        cases e
        exact ⟨flush_shape e3, fun _ => by omega, by simp, by simp⟩
  · rw [if_neg hc] at e
    by_cases hr : room = 0
    · rw [if_pos hr] at e
      cases e
      exact ⟨Or.inl ⟨rfl, by simp⟩, by simp, by simp, fun _ _ => by omega⟩
    · rw [if_neg hr] at e
      by_cases hl : inp.length - (n1 + n2) = 0
      · rw [if_pos hl] at e
        cases e
        exact ⟨Or.inl ⟨rfl, by simp⟩, fun _ => by omega, by simp, by simp⟩
      · rw [if_neg hl] at e
        cases e

/-- **C27, what the assembler asks for.** After any history, `stream` asks for more input only when it
has taken all it was offered, and with at least three free command slots it asks for more of them only
when input is left. -/
theorem stream_asks {ring : List UInt8} {ops : List Op} {s s' : St} {i inp : List UInt8} {cs cs' : List Cmd}
    {n room : Nat} {r : Res} (hr : run (new ring) ops = some (s, i, cs))
    (e : stream s inp room = some (s', n, cs', r)) :
    (r = .needsInput → n = inp.length) ∧ (r = .needsOutput → 3 ≤ room → n < inp.length) ∧
      r ≠ .success := by
  obtain ⟨s1, i1, cs1, e1, a, -⟩ := run_spec (inv_new ring) ops
  rw [hr] at e1
  cases e1
  obtain ⟨-, b, c, d⟩ := stream_shape a e
  exact ⟨b, d, c⟩

/-- **C27, the prediction mode command** is sent at most once, before all literals; the flag in the
state says whether it was sent. -/
theorem mode_first {ring : List UInt8} {ops : List Op} {s : St} {i : List UInt8} {cs : List Cmd}
    (hr : run (new ring) ops = some (s, i, cs)) :
    (s.hdr = false ∧ cs.length = 0) ∨ (s.hdr = true ∧ ∃ t, cs = .pm :: t ∧ Cmd.pm ∉ t) := by
  have hst : ∀ (st : St) (op : Op) x, Inv st → step st op = some x →
      Inv x.1 ∧ Shape st.hdr x.1.hdr x.2.2 ∧ (x.1.hdr = false → x.2.2 = []) := by
    intro st op x hi hx
    obtain ⟨s1, i1, c1, e1, a1, -⟩ := step_spec hi op
    rw [hx] at e1
    cases e1
    refine ⟨a1, ?_⟩
    have key : ∀ {t t' : St} {c : List Cmd} {room : Nat} {r : Res}, flush t room = some (t', c, r) →
        t'.hdr = false → c = [] := by
      intro t t' c room r e hf
      unfold flush at e
      split at e
      · cases e; rfl
      · split at e
        · split at e
          · cases e; simp at hf
          · have := (flushWrap_shape e).1
            rw [hf] at this; simp at this
        · rename_i hh
          have := (flushWrap_shape e).1
          rw [hf] at this
          exact absurd this.symm hh
    cases op with
    | flush room =>
      simp only [step, Option.map_eq_some_iff] at hx
      obtain ⟨⟨a, b, c⟩, e, he⟩ := hx
      cases he
      exact ⟨flush_shape e, key e⟩
    | stream inp room =>
      simp only [step, Option.map_eq_some_iff] at hx
      obtain ⟨⟨a, n, b, c⟩, e, he⟩ := hx
      cases he
      refine ⟨(stream_shape hi e).1, ?_⟩
      intro hf
      unfold stream at e
      split at e
      · cases e
      · split at e
        · cases e
        · split at e
          · cases e
          · rename_i e3
            cases e
            unfold finish at e3
            split at e3
            · split at e3
              · cases e3
              · rename_i e4
                cases e3; exact key e4 hf
              · cases e3; exact key (by assumption) hf
            · split at e3
              · cases e3; rfl
              · split at e3
                · cases e3; rfl
                · cases e3
  have key : ∀ (ops : List Op) (st : St) x, Inv st → run st ops = some x →
      Shape st.hdr x.1.hdr x.2.2 ∧ (x.1.hdr = false → x.2.2 = []) := by
    intro ops
    induction ops with
    | nil => intro st x _ hx; cases hx; exact ⟨Or.inl ⟨rfl, by simp⟩, fun _ => rfl⟩
    | cons op ops ih =>
      intro st x hi hx
      simp only [run] at hx
      cases h1 : step st op with
      | none => rw [h1] at hx; cases hx
      | some y =>
        obtain ⟨s1, i1, c1⟩ := y
        rw [h1] at hx
        simp only [Option.map_eq_some_iff] at hx
        obtain ⟨⟨s2, i2, c2⟩, h2, he⟩ := hx
        cases he
        obtain ⟨a1, a2, a3⟩ := hst st op _ hi h1
        obtain ⟨b2, b3⟩ := ih s1 _ a1 h2
        simp only at a2 a3 b2 b3 ⊢
        refine ⟨?_, ?_⟩
        · rcases a2 with ⟨p, q⟩ | ⟨p, q, t, rfl, w⟩
          · rcases b2 with ⟨p', q'⟩ | ⟨p', q', t', rfl, w'⟩
            · exact Or.inl ⟨p.trans p', by simp [q, q']⟩
            · have : c1 = [] := a3 p'
              subst this
              exact Or.inr ⟨p.trans p', q', t', rfl, w'⟩
          · rcases b2 with ⟨p', q'⟩ | ⟨p', q', t', rfl, w'⟩
            · exact Or.inr ⟨p, p'.symm.trans q, t ++ c2, rfl, by simp [w, q']⟩
            · rw [q] at p'; cases p'
        · intro hf
          have h2' : c2 = [] := b3 hf
          rcases b2 with ⟨p', q'⟩ | ⟨p', q', -⟩
          · rw [h2', a3 (p'.trans hf)]; rfl
          · rw [hf] at q'; cases q'
  obtain ⟨a, b⟩ := key ops (new ring) _ (inv_new ring) hr
  simp only at a b
  rcases a with ⟨p, q⟩ | ⟨-, q, t, w⟩
  · have : s.hdr = false := p.symm
    exact Or.inl ⟨this, by rw [b this]; rfl⟩
  · exact Or.inr ⟨q, t, w⟩

/-- Two pieces that do work, on a ring of eight bytes, with the second wrapping around. -/
example : ∃ cs, Complete (List.replicate 8 0) [.stream [1, 2, 3, 4, 5, 6] 16,
      .stream [7, 8, 9, 10] 16, .stream [9, 10] 16] [1, 2, 3, 4, 5, 6, 7, 8, 9, 10] cs ∧
    bytesOf cs = [1, 2, 3, 4, 5, 6, 7, 8, 9, 10] := by
  refine ⟨[.pm, .lit 0 [1, 2, 3, 4, 5, 6, 7, 8], .lit 0 [9, 10]],
    ⟨⟨[9, 10, 3, 4, 5, 6, 7, 8], 2, 8, true⟩, [.pm, .lit 0 [1, 2, 3, 4, 5, 6, 7, 8]], 3,
      ⟨[9, 10, 3, 4, 5, 6, 7, 8], 2, 2, true⟩, [.lit 0 [9, 10]], by decide +kernel, by decide +kernel,
      rfl⟩, by decide +kernel⟩

/-- An input as in the partial theorem, in three pieces, one of them empty. -/
example : OnlyStreams [.stream [1, 2] 2, .stream [] 0, .stream [3, 4] 1] ∧
    Complete [0, 0, 0, 0] [.stream [1, 2] 2, .stream [] 0, .stream [3, 4] 1] [1, 2, 3, 4]
      [.pm, .lit 0 [1, 2, 3, 4]] := by
  refine ⟨?_, ⟨[1, 2, 3, 4], 4, 0, true⟩, [.pm], 1, ⟨[1, 2, 3, 4], 4, 4, true⟩, [.lit 0 [1, 2, 3, 4]],
    by decide +kernel, by decide +kernel, rfl⟩
  intro op hop
  simp only [List.mem_cons, List.not_mem_nil, or_false] at hop
  rcases hop with rfl | rfl | rfl <;> exact ⟨_, _, rfl⟩

end Divans.RawCmd
