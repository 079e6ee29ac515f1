import Verif.File
import Verif.FrameProps
import Verif.PipeProps

/-!
# Properties of whole files: C23 and C38 on the reading side, C45

* `success_means_checked`: for arbitrary input, success is only reported when header, streams and
  trailer are as they should be.
* `whole_file`: every file a compressor writes is decompressed to the original data, however it
  arrives, whatever follows it, and in whatever order the two decoders make their steps.
-/

namespace Divans.File
open Divans.Adaptive Divans.Pipe
open Divans.Crc (crc32c)
open Divans.Frame (makeHeader trailer GoodHeader fileOf)

/-! ## The reader automaton, relative to what was already delivered -/

theorem runAll_prepend (g : Bool → List UInt8) : ∀ (l : List UInt8) (s : Mux.Scan),
    Mux.runAll ⟨s.btd, s.eof, fun i => g i ++ s.out i⟩ l =
      (Mux.runAll s l).map fun s' => ⟨s'.btd, s'.eof, fun i => g i ++ s'.out i⟩ := by
  intro l
  induction l with
  | nil => intro s; rfl
  | cons b l ih =>
    intro s
    rw [Mux.runAll, Mux.runAll, Mux.step_prepend]
    cases hs : Mux.step ⟨s.btd, s.eof, s.out⟩ b with
    | none => rfl
    | some s1 =>
      simp only [Option.map_some, Option.bind_some]
      exact ih s1

/-- After `runAll` from a state, delivered bytes can be stripped. -/
theorem runAll_strip {btd : Mux.Btd} {eof : Mux.Eof} {o o' g : Bool → List UInt8} {l : List UInt8} {s : Mux.Scan}
    (h : Mux.runAll ⟨btd, eof, o⟩ l = some s) (ho : ∀ i, o i = g i ++ o' i) :
    ∃ s', Mux.runAll ⟨btd, eof, o'⟩ l = some s' ∧ s'.eof = s.eof ∧ s'.btd = s.btd ∧ ∀ i, s.out i = g i ++ s'.out i := by
  have e : o = fun i => g i ++ o' i := funext ho
  rw [e] at h
  have := runAll_prepend g l ⟨btd, eof, o'⟩
  rw [this] at h
  cases hr : Mux.runAll ⟨btd, eof, o'⟩ l with
  | none => rw [hr] at h; cases h
  | some s' =>
    rw [hr, Option.map_some, Option.some.injEq] at h
    subst h
    exact ⟨s', rfl, rfl, rfl, fun _ => rfl⟩

/-! ## The parts of the demultiplexer -/

theorem unread_consume {m : Mux.Mux} (hok : m.Ok) (i : Bool) (k : Nat) (hk : k ≤ (m.unread i).length) :
    (m.consume i k).Ok ∧ (m.consume i k).unread i = (m.unread i).drop k ∧
      (∀ j, j ≠ i → (m.consume i k).unread j = m.unread j) ∧ (m.consume i k).btd = m.btd ∧
      (m.consume i k).eof = m.eof := by
  have hl := Mux.unread_length (hok i)
  rw [Mux.Mux.unread, hl] at hk
  refine ⟨?_, ?_, ?_, rfl, rfl⟩
  · intro j
    by_cases hj : j = i
    · subst hj
      obtain ⟨h1, h2⟩ := hok j
      simp only [Mux.Mux.consume, Mux.upd_same]
      exact ⟨by simp only; omega, h2⟩
    · simp only [Mux.Mux.consume, Mux.upd_ne _ _ hj]; exact hok j
  · simp only [Mux.Mux.unread, Mux.Mux.consume, Mux.upd_same, Mux.Buf.unread]
    rw [List.drop_take, List.drop_drop]
    congr 1
    omega
  · intro j hj
    simp only [Mux.Mux.unread, Mux.Mux.consume, Mux.upd_ne _ _ hj]

theorem takeBuf_spec {m : Mux.Mux} (hok : m.Ok) (i : Bool) :
    (m.takeBuf i).1.Ok ∧ (m.takeBuf i).2.unread = m.unread i ∧ (m.takeBuf i).1.unread i = [] ∧
      (∀ j, j ≠ i → (m.takeBuf i).1.unread j = m.unread j) ∧ (m.takeBuf i).1.btd = m.btd ∧
      (m.takeBuf i).1.eof = m.eof := by
  refine ⟨?_, rfl, ?_, ?_, rfl, rfl⟩
  · intro j
    by_cases hj : j = i
    · subst hj; simp [Mux.Mux.takeBuf, Mux.Buf.Ok, Mux.Buf.empty]
    · simp only [Mux.Mux.takeBuf, Mux.upd_ne _ _ hj]; exact hok j
  · simp [Mux.Mux.takeBuf, Mux.Mux.unread, Mux.Buf.unread, Mux.Buf.empty]
  · intro j hj
    simp only [Mux.Mux.unread, Mux.Mux.takeBuf, Mux.upd_ne _ _ hj]

theorem recycle_spec {m : Mux.Mux} (hok : m.Ok) (i : Bool) (mem : List UInt8) :
    (m.recycle i mem).Ok ∧ (∀ j, (m.recycle i mem).unread j = m.unread j) ∧ (m.recycle i mem).btd = m.btd ∧
      (m.recycle i mem).eof = m.eof := by
  unfold Mux.Mux.recycle
  by_cases h : (m.buf i).mem = []
  · rw [if_pos h]
    refine ⟨?_, ?_, rfl, rfl⟩
    · intro j
      by_cases hj : j = i
      · subst hj
        obtain ⟨h1, h2⟩ := hok j
        rw [h, List.length_nil] at h2
        simp only [Mux.upd_same]
        exact ⟨h1, by simp only; omega⟩
      · simp only [Mux.upd_ne _ _ hj]; exact hok j
    · intro j
      by_cases hj : j = i
      · subst hj
        obtain ⟨h1, h2⟩ := hok j
        rw [h, List.length_nil] at h2
        have h3 : (m.buf j).stop - (m.buf j).start = 0 := by omega
        simp [Mux.Mux.unread, Mux.Buf.unread, h3]
      · simp only [Mux.Mux.unread, Mux.upd_ne _ _ hj]
  · rw [if_neg h]
    exact ⟨hok, fun _ => rfl, rfl, rfl⟩

/-! ## The parts of the decoders -/

theorem step_buf {κ ι : Type} [DecidableEq κ] [DecidableEq ι] (r : Rx κ ι) (ch : Choice κ ι) :
    ∃ k, (r.step ch).1.buf = r.buf.drop k := by
  unfold Rx.step
  simp only
  split
  · exact ⟨_, rfl⟩
  · exact ⟨_, rfl⟩

theorem drop_min {α : Type} (l : List α) (k : Nat) : l.drop k = l.drop (min k l.length) := by
  rcases Nat.le_total k l.length with h | h
  · rw [Nat.min_eq_left h]
  · rw [Nat.min_eq_right h, List.drop_eq_nil_of_le h, List.drop_length]

/-- The main side only ever takes bytes from the front of the literal buffer. -/
theorem main_buf {dw : Nat → Nat → Nat → List UInt8} {r r' : Rcv} {room : Nat} {o : List UInt8}
    (h : r.main dw room = .ok (r', o)) : ∃ k, r'.litRx.buf = r.litRx.buf.drop k := by
  unfold Rcv.main at h
  cases hat : r.at_ with
  | idle =>
    rw [hat] at h
    simp only at h
    cases hq : r.queue with
    | nil =>
      rw [hq] at h
      simp only at h
      split at h
      · split at h <;> try cases h
        all_goals exact ⟨0, rfl⟩
      · cases h; exact ⟨0, rfl⟩
    | cons g q =>
      rw [hq] at h
      simp only at h
      have key : ∀ x, Rcv.next dw { r with queue := q, at_ := .idle } g = .ok x → x.litRx = r.litRx := by
        intro x hx
        unfold Rcv.next at hx
        cases g with
        | copy d n => cases hx; rfl
        | dict z i t => cases hx; rfl
        | lit n e =>
          simp only at hx
          split at hx
          · cases hx
          · cases hx; rfl
        | bswitch k t st => cases k <;> (cases hx; rfl)
        | pm p =>
          simp only at hx
          cases hp : r.lbk.obsPm p with
          | ok l => rw [hp] at hx; cases hx; rfl
          | fail => rw [hp] at hx; cases hx
          | panic => rw [hp] at hx; cases hx
      cases hn : Rcv.next dw { r with queue := q, at_ := .idle } g with
      | ok x =>
        rw [hn] at h
        cases h
        exact ⟨0, by rw [key _ hn]; rfl⟩
      | fail => rw [hn] at h; cases h
      | panic => rw [hn] at h; cases h
  | content c =>
    rw [hat] at h
    simp only at h
    split at h
    · cases h; exact ⟨0, rfl⟩
    · cases ha : c.ask r.lbk with
      | none => rw [ha] at h; cases h
      | some ch =>
        rw [ha] at h
        simp only at h
        obtain ⟨k, hk⟩ := step_buf r.litRx ch
        cases hs : r.litRx.step ch with
        | mk rx on =>
          rw [hs] at h hk
          cases on with
          | none => cases h; exact ⟨k, hk⟩
          | some n => cases h; exact ⟨k, hk⟩
  | filling c =>
    rw [hat] at h
    simp only at h
    split at h <;> try cases h
    all_goals exact ⟨0, rfl⟩
  | finished =>
    rw [hat] at h
    cases h; exact ⟨0, rfl⟩

/-- The worker does not look at the literal side. -/
theorem worker_lit (r : Rcv) (l : Rx Lit.Key Bool) :
    Rcv.worker { r with litRx := l } = r.worker.bind fun r' => .ok { r' with litRx := l } := by
  unfold Rcv.worker
  simp only
  split
  · rfl
  · cases Codec.coreAsk r.core with
    | none => rfl
    | some a =>
      simp only
      cases r.cmdRx.step (.plain a.key (some a.speed)) with
      | mk rx on =>
        cases on with
        | none => rfl
        | some n =>
          simp only
          cases Codec.coreTake r.core n <;> rfl

/-! ## Arbitrary input: what success means -/

/-- The invariant for any input: the bytes offered so far are the header, the accepted bytes of the
streams, the bytes of the trailer, and what is pending. -/
def Seen (d : Dec) (all : List UInt8) : Prop :=
  match d.stage with
  | .header got => got.length < 16 ∧ all = got ++ d.pending
  | .body b => ∃ h w s body, GoodHeader h w ∧ Mux.runAll .init body = some s ∧ s.eof = b.mux.eof ∧
      s.btd = Mux.norm b.mux.btd ∧ b.mux.Ok ∧ (d.skip = false → b.crc = crc32c (h ++ body)) ∧
      b.sum.length ≤ 8 ∧ (b.sum ≠ [] → b.mux.eof = .done) ∧ all = h ++ body ++ b.sum ++ d.pending

theorem seen_new (skip : Bool) : Seen (.new skip) [] := ⟨by simp, rfl⟩

theorem seen_input {d d' : Dec} {all : List UInt8} (h : Seen d all) (e : d.input = .ok d') :
    Seen d' all ∧ d'.skip = d.skip := by
  unfold Dec.input at e
  unfold Seen at h
  cases hst : d.stage with
  | header got =>
    rw [hst] at h e
    simp only at h e
    obtain ⟨hlen, hall⟩ := h
    unfold Frame.headerDecode at e
    simp only at e
    by_cases hp : d.pending.length ≥ 16 - got.length
    · rw [if_pos hp] at e
      cases hph : Frame.parseHeader (got ++ d.pending.take (16 - got.length)) with
      | none => rw [hph] at e; cases e
      | some w =>
        rw [hph] at e
        cases e
        have hl16 : (got ++ d.pending.take (16 - got.length)).length = 16 := by
          rw [List.length_append, List.length_take]; omega
        refine ⟨⟨got ++ d.pending.take (16 - got.length), w, .init, [], (Frame.parseHeader_iff _ hl16 w).mp hph, rfl,
          rfl, rfl, Mux.ok_new, ?_, by simp, by simp, ?_⟩, rfl⟩
        · intro hs
          have hs' : d.skip = false := hs
          simp only [hs', Bool.false_eq_true, if_false, List.append_nil]
          rw [Crc.crc_correct]
        · simp only [List.append_nil]
          rw [List.append_assoc, List.take_append_drop, hall]
    · rw [if_neg hp] at e
      cases e
      refine ⟨⟨by rw [List.length_append]; omega, ?_⟩, rfl⟩
      simp [hall]
  | body b =>
    rw [hst] at h e
    simp only at h e
    obtain ⟨hd, w, s, body, hgood, hrun, hse, hsb, hok, hcrc, hsl, hsne, hall⟩ := h
    obtain ⟨m, n, e1, hok', hn, hrun', hz, -⟩ := Mux.deserialize_spec hok d.pending
    unfold Body.input at e
    rw [e1] at e
    simp only at e
    have hbody : ∃ s', Mux.runAll .init (body ++ d.pending.take n) = some s' ∧ s'.eof = m.eof ∧ s'.btd = Mux.norm m.btd := by
      rw [Mux.runAll_append, hrun, Option.bind_some]
      have h0 := runAll_prepend s.out (d.pending.take n) ⟨s.btd, s.eof, fun _ => []⟩
      obtain ⟨s2, h2, h2e, h2b, -⟩ := runAll_strip (o' := fun _ => []) (g := b.mux.unread) hrun'
        (fun i => by simp [Mux.scanOf])
      rw [hse, hsb] at h0
      have : Mux.runAll ⟨Mux.norm b.mux.btd, b.mux.eof, fun _ => []⟩ (d.pending.take n) = some s2 := h2
      simp only [this, List.append_nil, Option.map_some] at h0
      refine ⟨⟨s2.btd, s2.eof, fun i => s.out i ++ s2.out i⟩, ?_, ?_, ?_⟩
      · rw [← h0, ← hse, ← hsb]
      · simp only; rw [h2e]; rfl
      · simp only; rw [h2b]; rfl
    obtain ⟨s', hs', hs'e, hs'b⟩ := hbody
    have hcrc' : d.skip = false → (if d.skip then b.crc else Crc.update b.crc (d.pending.take n)) =
        crc32c (hd ++ (body ++ d.pending.take n)) := by
      intro hs
      rw [hs, if_neg (by simp), hcrc hs, Frame.crc_append, List.append_assoc]
    have hfix : b.sum ≠ [] → n = 0 := by
      intro hne
      have hdone := hsne hne
      cases hp : d.pending with
      | nil => rw [hp] at hn; simpa using hn
      | cons x r =>
        rcases Nat.eq_zero_or_pos n with h0 | h0
        · exact h0
        · exfalso
          obtain ⟨n', rfl⟩ : ∃ n', n = n' + 1 := ⟨n - 1, by omega⟩
          rw [hp, List.take_succ_cons, Mux.runAll, Mux.step, if_pos (by simp [Mux.scanOf, hdone])] at hrun'
          cases hrun'
    have hsplit : hd ++ (body ++ d.pending.take n) ++ b.sum ++ d.pending.drop n = all := by
      rw [hall]
      by_cases hne : b.sum = []
      · rw [hne]
        simp only [List.append_nil, List.append_assoc, List.take_append_drop]
      · rw [hfix hne]
        simp
    by_cases hc : m.sawEof = true ∧ b.sum.length ≠ 8
    · rw [if_pos hc] at e
      simp only at e
      cases e
      refine ⟨⟨hd, w, s', body ++ d.pending.take n, hgood, hs', hs'e, hs'b, hok', hcrc', ?_, ?_, ?_⟩, rfl⟩
      · rw [List.length_append, List.length_take]; omega
      · intro _; exact of_decide_eq_true hc.1
      · simp only
        rw [← hsplit, List.append_assoc _ (b.sum ++ _), List.append_assoc b.sum, List.take_append_drop]
        simp only [List.append_assoc]
    · rw [if_neg hc] at e
      simp only at e
      cases e
      refine ⟨⟨hd, w, s', body ++ d.pending.take n, hgood, hs', hs'e, hs'b, hok', hcrc', hsl, ?_, hsplit.symm⟩, rfl⟩
      intro hne
      have h0 := hfix hne
      subst h0
      simp only [List.take_zero, Mux.runAll, Option.some.injEq] at hrun'
      have : b.mux.eof = m.eof := congrArg Mux.Scan.eof hrun'
      simp only
      rw [← this]
      exact hsne hne

theorem seen_act {dw : Nat → Nat → Nat → List UInt8} {d d' : Dec} {all o : List UInt8} (a : Act) (h : Seen d all)
    (e : d.act dw a = .ok (d', o)) : Seen d' (all ++ fed [a]) ∧ d'.skip = d.skip := by
  cases a with
  | more piece =>
    cases e
    refine ⟨?_, rfl⟩
    unfold Seen at h ⊢
    simp only [fed, List.append_nil]
    cases hst : d.stage with
    | header got =>
      rw [hst] at h
      exact ⟨h.1, by rw [h.2, List.append_assoc]⟩
    | body b =>
      rw [hst] at h
      obtain ⟨hd, w, s, body, h1, h2, h3, h4, h5, h6, h7, h8, h9⟩ := h
      exact ⟨hd, w, s, body, h1, h2, h3, h4, h5, h6, h7, h8, by rw [h9, List.append_assoc]⟩
  | input =>
    simp only [Dec.act] at e
    cases hi : d.input with
    | fail => rw [hi] at e; cases e
    | panic => rw [hi] at e; cases e
    | ok d1 =>
      rw [hi] at e
      cases e
      simp only [fed, List.append_nil]
      exact seen_input h hi
  | hand =>
    simp only [Dec.act] at e
    simp only [fed, List.append_nil]
    cases hst : d.stage with
    | header got => rw [hst] at e; cases e; exact ⟨h, rfl⟩
    | body b =>
      rw [hst] at e
      cases e
      refine ⟨?_, rfl⟩
      unfold Seen at h ⊢
      rw [hst] at h
      obtain ⟨hd, w, s, body, h1, h2, h3, h4, h5, h6, h7, h8, h9⟩ := h
      obtain ⟨k1, -, -, -, k5, k6⟩ := takeBuf_spec h5 false
      unfold Body.hand
      by_cases hu : b.mux.unread false = []
      · rw [if_pos hu]
        exact ⟨hd, w, s, body, h1, h2, h3, h4, h5, h6, h7, h8, h9⟩
      · rw [if_neg hu]
        exact ⟨hd, w, s, body, h1, h2, h3, h4, k1, h6, h7, h8, h9⟩
  | recycle mem =>
    simp only [Dec.act] at e
    simp only [fed, List.append_nil]
    cases hst : d.stage with
    | header got => rw [hst] at e; cases e; exact ⟨h, rfl⟩
    | body b =>
      rw [hst] at e
      cases e
      refine ⟨?_, rfl⟩
      unfold Seen at h ⊢
      rw [hst] at h
      obtain ⟨hd, w, s, body, h1, h2, h3, h4, h5, h6, h7, h8, h9⟩ := h
      obtain ⟨k1, -, k5, k6⟩ := recycle_spec h5 false mem
      exact ⟨hd, w, s, body, h1, h2, h3.trans k6.symm, by simp only; rw [k5]; exact h4, k1, h6, h7, fun hx => k6.trans (h8 hx), h9⟩
  | worker =>
    simp only [Dec.act] at e
    simp only [fed, List.append_nil]
    cases hst : d.stage with
    | header got => rw [hst] at e; cases e; exact ⟨h, rfl⟩
    | body b =>
      rw [hst] at e
      simp only at e
      cases hw : b.rcv.worker with
      | fail => rw [hw] at e; cases e
      | panic => rw [hw] at e; cases e
      | ok r =>
        rw [hw] at e
        cases e
        refine ⟨?_, rfl⟩
        unfold Seen at h ⊢
        rw [hst] at h
        exact h
  | main room =>
    simp only [Dec.act] at e
    simp only [fed, List.append_nil]
    cases hst : d.stage with
    | header got => rw [hst] at e; cases e; exact ⟨h, rfl⟩
    | body b =>
      rw [hst] at e
      simp only [Body.main] at e
      cases hw : Rcv.main dw { b.rcv with litRx := { b.rcv.litRx with buf := b.mux.unread true } } room with
      | fail => rw [hw] at e; cases e
      | panic => rw [hw] at e; cases e
      | ok x =>
        rw [hw] at e
        cases e
        refine ⟨?_, rfl⟩
        unfold Seen at h ⊢
        rw [hst] at h
        obtain ⟨hd, w, s, body, h1, h2, h3, h4, h5, h6, h7, h8, h9⟩ := h
        obtain ⟨k1, -, -, k5, k6⟩ := unread_consume h5 true ((b.mux.unread true).length - x.1.litRx.buf.length)
          (by omega)
        exact ⟨hd, w, s, body, h1, h2, h3, h4, k1, h6, h7, h8, h9⟩

theorem seen_run {dw : Nat → Nat → Nat → List UInt8} : ∀ (acts : List Act) {d d' : Dec} {all out : List UInt8},
    Seen d all → run dw d acts = .ok (d', out) → Seen d' (all ++ fed acts) ∧ d'.skip = d.skip := by
  intro acts
  induction acts with
  | nil =>
    intro d d' all out h e
    cases e
    exact ⟨by simpa [fed] using h, rfl⟩
  | cons a as ih =>
    intro d d' all out h e
    simp only [run] at e
    cases ha : d.act dw a with
    | fail => rw [ha] at e; cases e
    | panic => rw [ha] at e; cases e
    | ok x =>
      rw [ha] at e
      simp only [Codec.Res.bind] at e
      cases hr : run dw x.1 as with
      | fail => rw [hr] at e; cases e
      | panic => rw [hr] at e; cases e
      | ok y =>
        rw [hr] at e
        cases e
        obtain ⟨h1, h2⟩ := seen_act a h (o := x.2) ha
        obtain ⟨h3, h4⟩ := ih h1 hr
        refine ⟨?_, h4.trans h2⟩
        have : fed (a :: as) = fed [a] ++ fed as := by cases a <;> simp [fed]
        rw [this, ← List.append_assoc]
        exact h3

theorem sumOk_spec (skip : Bool) (crc : Nat) (sum : List UInt8) (hl : sum.length = 8) :
    sumOk skip crc sum = true ↔
      (skip = false → sum.take 4 = (trailer crc).take 4) ∧ sum.drop 4 = [0x61, 0x6e, 0x73, 0x7e] := by
  match sum, hl with
  | [a, b, c, d, e, f, g, h], _ =>
    cases skip
    · simp [sumOk, trailer, List.zipIdx]
      constructor
      · rintro ⟨h1, h2, h3, h4, h5, h6, h7, h8⟩; simp_all
      · rintro ⟨⟨h1, h2, h3, h4⟩, h5, h6, h7, h8⟩; simp_all
    · simp [sumOk, trailer, List.zipIdx]
      constructor
      · rintro ⟨h5, h6, h7, h8⟩; simp_all
      · rintro ⟨h5, h6, h7, h8⟩; simp_all

/-- **C23 (reading).**  Whatever bytes are fed to a decompressor, in whatever pieces and schedule: if it
reports success, the bytes it accepted were a good header, streams ended by the end marker, and a
trailer whose last four bytes are `ans~` and whose first four bytes, unless checksums are skipped, are
the CRC-32C of everything before it; the bytes not accepted are exactly those that follow. -/
theorem success_means_checked (dw : Nat → Nat → Nat → List UInt8) (skip : Bool) (acts : List Act) (d : Dec)
    (out : List UInt8) (e : run dw (.new skip) acts = .ok (d, out)) (hv : d.verdict = .success) :
    ∃ h w body sum s, GoodHeader h w ∧ Mux.runAll .init body = some s ∧ s.eof = .done ∧
      fed acts = h ++ body ++ (sum ++ [0x61, 0x6e, 0x73, 0x7e]) ++ d.pending ∧ sum.length = 4 ∧
      (skip = false → h ++ body ++ (sum ++ [0x61, 0x6e, 0x73, 0x7e]) =
        h ++ body ++ trailer (crc32c (h ++ body))) := by
  obtain ⟨hseen, hskip⟩ := seen_run acts (seen_new skip) e
  unfold Dec.verdict at hv
  unfold Seen at hseen
  cases hst : d.stage with
  | header got => rw [hst] at hv; cases hv
  | body b =>
    rw [hst] at hv hseen
    simp only at hv
    obtain ⟨h, w, s, body, hgood, hrun, hse, -, -, hcrc, -, hsne, hall⟩ := hseen
    split at hv
    · cases hv
    split at hv
    · cases hv
    next hlen =>
    rw [Decidable.not_not] at hlen
    split at hv
    · next hok =>
      rw [sumOk_spec _ _ _ hlen] at hok
      have hsum : b.sum = b.sum.take 4 ++ [0x61, 0x6e, 0x73, 0x7e] := by
        rw [← hok.2, List.take_append_drop]
      refine ⟨h, w, body, b.sum.take 4, s, hgood, hrun, ?_, ?_, by rw [List.length_take]; omega, ?_⟩
      · rw [hse]
        apply hsne
        intro h0
        rw [h0] at hlen
        cases hlen
      · rw [← hsum]
        simpa using hall
      · intro hs
        have hs' : d.skip = false := by rw [hskip]; exact hs
        rw [hok.1 hs', hcrc hs']
        rfl
    · cases hv

/-! ## Files written by the compressor -/

/-- The bytes `brest` complete the streams: the end marker comes with the last of them, and `rest i`
is still to be delivered for stream `i`. -/
def Rest (m : Mux.Mux) (brest : List UInt8) (rest : Bool → List UInt8) : Prop :=
  ∃ s, Mux.runAll (Mux.scanOf m) brest = some s ∧ s.eof = .done ∧ ∀ i, s.out i = m.unread i ++ rest i

theorem Rest.congr {m m' : Mux.Mux} {brest : List UInt8} {rest : Bool → List UInt8} (h : Rest m brest rest)
    (hb : m'.btd = m.btd) (he : m'.eof = m.eof) (g : Bool → List UInt8)
    (hu : ∀ i, m.unread i = g i ++ m'.unread i) : Rest m' brest rest := by
  obtain ⟨s, h1, h2, h3⟩ := h
  obtain ⟨s', k1, k2, -, k4⟩ := runAll_strip (o' := m'.unread) (g := g) h1 hu
  refine ⟨s', ?_, k2.trans h2, fun i => ?_⟩
  · rw [Mux.scanOf, hb, he]; exact k1
  · have := k4 i
    rw [h3 i, hu i, List.append_assoc] at this
    exact (List.append_cancel_left this).symm

theorem Rest.nil {m : Mux.Mux} {rest : Bool → List UInt8} (h : Rest m [] rest) :
    m.eof = .done ∧ ∀ i, rest i = [] := by
  obtain ⟨s, h1, h2, h3⟩ := h
  simp only [Mux.runAll, Option.some.injEq] at h1
  subst h1
  refine ⟨h2, fun i => ?_⟩
  have := h3 i
  simp only [Mux.scanOf] at this
  have hl := congrArg List.length this
  rw [List.length_append] at hl
  exact List.eq_nil_of_length_eq_zero (by omega)

theorem Rest.cons {m : Mux.Mux} {b : UInt8} {brest : List UInt8} {rest : Bool → List UInt8}
    (h : Rest m (b :: brest) rest) : m.eof ≠ .done ∧ Mux.step (Mux.scanOf m) b ≠ none := by
  obtain ⟨s, h1, -, -⟩ := h
  rw [Mux.runAll] at h1
  have hs : Mux.step (Mux.scanOf m) b ≠ none := by
    intro h0; rw [h0] at h1; cases h1
  refine ⟨fun hd => hs ?_, hs⟩
  rw [Mux.step, if_pos (by simp [Mux.scanOf, hd])]

theorem pre_split : ∀ (a s f t : List UInt8), a ++ f = s ++ t →
    a.take (min a.length s.length) = s.take (min a.length s.length) ∧
      a.drop (min a.length s.length) ++ f = s.drop (min a.length s.length) ++ t := by
  intro a
  induction a with
  | nil => intro s f t h; simpa using h
  | cons x a ih =>
    intro s f t h
    cases s with
    | nil => simpa using h
    | cons y s =>
      simp only [List.cons_append, List.cons.injEq] at h
      obtain ⟨rfl, h⟩ := h
      obtain ⟨h1, h2⟩ := ih s f t h
      have : min (x :: a).length (x :: s).length = min a.length s.length + 1 := by
        simp only [List.length_cons]; omega
      rw [this, List.take_succ_cons, List.take_succ_cons, List.drop_succ_cons, List.drop_succ_cons, h1]
      exact ⟨rfl, h2⟩

/-- What the demultiplexer accepts of the bytes of a file. -/
theorem rest_input {m : Mux.Mux} {brest more pending fut : List UInt8} {rest : Bool → List UInt8} (hok : m.Ok)
    (h : Rest m brest rest) (hp : pending ++ fut = brest ++ more) :
    ∃ m' n, ∃ x rest' : Bool → List UInt8, Mux.deserialize m pending = some (m', n) ∧ m'.Ok ∧ n ≤ pending.length ∧ n ≤ brest.length ∧
      pending.take n = brest.take n ∧ pending.drop n ++ fut = brest.drop n ++ more ∧ Rest m' (brest.drop n) rest' ∧
      (∀ i, m'.unread i = m.unread i ++ x i) ∧ (∀ i, rest i = x i ++ rest' i) ∧
      (pending ≠ [] → brest ≠ [] → 0 < n) := by
  obtain ⟨m', n, e1, hok', hn, hrun, hz, -⟩ := Mux.deserialize_spec hok pending
  have hpre := pre_split pending brest fut more hp
  have hnb : n ≤ brest.length := by
    rcases Nat.lt_or_ge brest.length n with hlt | hge
    · exfalso
      have hmin : min pending.length brest.length = brest.length := by omega
      rw [hmin] at hpre
      rw [List.take_length] at hpre
      obtain ⟨s, h1, h2, -⟩ := h
      have hsplit : pending.take n = brest ++ (pending.drop brest.length).take (n - brest.length) := by
        rw [← hpre.1, ← List.drop_take]
        rw [List.length_take, Nat.min_eq_left (by omega)]
        have : pending.take brest.length = (pending.take n).take brest.length := by
          rw [List.take_take, Nat.min_eq_left (by omega)]
        rw [this, List.take_append_drop]
      rw [hsplit, Mux.runAll_append, h1, Option.bind_some] at hrun
      cases hq : (pending.drop brest.length).take (n - brest.length) with
      | nil =>
        have := congrArg List.length hq
        rw [List.length_take, List.length_drop, List.length_nil] at this
        omega
      | cons y ys =>
        rw [hq, Mux.runAll, Mux.step, if_pos (by simp [h2])] at hrun
        cases hrun
    · exact hge
  have htake : pending.take n = brest.take n := by
    have h1 := congrArg (List.take n) hpre.1
    rwa [List.take_take, List.take_take, Nat.min_eq_left (by omega)] at h1
  have hrest : pending.drop n ++ fut = brest.drop n ++ more := by
    have h1 := congrArg (List.drop n) hp
    rwa [List.drop_append_of_le_length hn, List.drop_append_of_le_length hnb] at h1
  have hpos : pending ≠ [] → brest ≠ [] → 0 < n := by
    intro h1 h2
    rcases Nat.eq_zero_or_pos n with h0 | h0
    · exfalso
      cases hpd : pending with
      | nil => exact h1 hpd
      | cons y ys =>
        cases hbr : brest with
        | nil => exact h2 hbr
        | cons z zs =>
          rw [hpd, hbr] at hp
          simp only [List.cons_append, List.cons.injEq] at hp
          rw [hbr] at h
          apply h.cons.2
          rw [← hp.1]
          exact hz h0 y ys hpd
    · exact h0
  obtain ⟨s, h1, h2, h3⟩ := h
  have h4 : Mux.runAll (Mux.scanOf m') (brest.drop n) = some s := by
    have : brest = brest.take n ++ brest.drop n := (List.take_append_drop _ _).symm
    rw [this, Mux.runAll_append, ← htake, hrun, Option.bind_some] at h1
    exact h1
  have hx : ∀ i, ∃ x, m'.unread i = m.unread i ++ x := by
    intro i
    obtain ⟨x, hx⟩ := Mux.runAll_out_prefix hrun i
    exact ⟨x, hx.symm⟩
  have hy : ∀ i, ∃ y, s.out i = m'.unread i ++ y := by
    intro i
    obtain ⟨y, hy⟩ := Mux.runAll_out_prefix h4 i
    exact ⟨y, hy.symm⟩
  obtain ⟨x, hx⟩ : ∃ x : Bool → List UInt8, ∀ i, m'.unread i = m.unread i ++ x i :=
    ⟨fun i => (hx i).choose, fun i => (hx i).choose_spec⟩
  obtain ⟨y, hy⟩ : ∃ y : Bool → List UInt8, ∀ i, s.out i = m'.unread i ++ y i :=
    ⟨fun i => (hy i).choose, fun i => (hy i).choose_spec⟩
  refine ⟨m', n, x, y, e1, hok', hn, hnb, htake, hrest, ⟨s, h4, h2, hy⟩, hx, fun i => ?_, hpos⟩
  have e2 := hy i
  have e3 := hx i
  have e4 := h3 i
  rw [e2, e3, List.append_assoc] at e4
  exact (List.append_cancel_left e4).symm

/-- The invariant for files of the compressor: header `h`, streams `body`, trailer `tr`, followed by
`tail`; `fut` has not arrived, `E` has been given out, and `T` bounds what is to be done. -/
def FOk (cm : Bool) (dw : Nat → Nat → Nat → List UInt8) (L : Nat) (F h body tr tail : List UInt8) (d : Dec)
    (fut E : List UInt8) (T : Nat) : Prop :=
  match d.stage with
  | .header got => ∃ hrest s tc gs tl, got ++ hrest = h ∧ hrest ≠ [] ∧
      d.pending ++ fut = hrest ++ (body ++ (tr ++ tail)) ∧ E = [] ∧ Mux.runAll .init body = some s ∧ s.eof = .done ∧
      ROk cm dw L F tc gs tl (s.out false) (s.out true) (Rcv.init L) [] ∧
      T = hrest.length + body.length + tr.length + todo L F tc gs tl (Rcv.init L) []
  | .body b => ∃ bdone brest srest rest tc gs tl, bdone ++ brest = body ∧ b.sum ++ srest = tr ∧
      (brest ≠ [] → b.sum = []) ∧ d.pending ++ fut = brest ++ (srest ++ tail) ∧ b.mux.Ok ∧ Rest b.mux brest rest ∧
      b.crc = (if d.skip then Crc.init else crc32c (h ++ bdone)) ∧
      ROk cm dw L F tc gs tl (b.mux.unread false ++ rest false) (rest true)
        { b.rcv with litRx := { b.rcv.litRx with buf := b.mux.unread true } } E ∧
      T = brest.length + srest.length + todo L F tc gs tl b.rcv E

/-- All bytes accepted and everything given out. -/
def Dec.AllDone (d : Dec) : Prop :=
  match d.stage with
  | .header _ => False
  | .body b => b.mux.eof = .done ∧ b.sum.length = 8 ∧ b.rcv.at_ = .finished

/-- All bytes of the file accepted. -/
def Dec.Took (d : Dec) : Prop :=
  match d.stage with
  | .header _ => False
  | .body b => b.mux.eof = .done ∧ b.sum.length = 8

variable {cm : Bool} {dw : Nat → Nat → Nat → List UInt8} {w : Nat} {F h body tr tail : List UInt8}

theorem input_ok (hg : GoodHeader h w) (ht : tr.length = 8) {d : Dec} {fut E : List UInt8} {T : Nat}
    (hd : FOk cm dw (2 ^ w) F h body tr tail d fut E T) :
    ∃ d' T', d.input = .ok d' ∧ FOk cm dw (2 ^ w) F h body tr tail d' fut E T' ∧ T' ≤ T ∧ d'.skip = d.skip ∧
      (fut = [] → T' < T ∨ d.Took) ∧ (d.Took → d'.Took) ∧ (d.AllDone → d'.AllDone) := by
  unfold FOk at hd
  unfold Dec.input Dec.Took Dec.AllDone
  cases hst : d.stage with
  | header got =>
    rw [hst] at hd
    obtain ⟨hrest, s, tc, gs, tl, h1, h2, h3, h4, h5, h6, h7, h8⟩ := hd
    have hlen : got.length + hrest.length = 16 := by
      rw [← List.length_append, h1, hg.1]
    have hpos : 0 < hrest.length := List.length_pos_iff.mpr h2
    obtain ⟨p1, p2⟩ := pre_split d.pending hrest fut _ h3
    simp only
    unfold Frame.headerDecode
    simp only
    have h16 : 16 - got.length = hrest.length := by omega
    rw [h16]
    by_cases hp : d.pending.length ≥ hrest.length
    · rw [if_pos hp]
      rw [Nat.min_eq_right hp] at p1 p2
      rw [List.take_length] at p1
      rw [List.drop_length, List.nil_append] at p2
      rw [p1, h1, (Frame.parseHeader_iff h hg.1 w).mpr hg]
      refine ⟨_, _, rfl, ⟨[], body, tr, s.out, tc, gs, tl, rfl, rfl, fun _ => rfl, p2, Mux.ok_new,
        ⟨s, h5, h6, fun i => rfl⟩, ?_, ?_, rfl⟩, ?_, rfl, fun _ => Or.inl ?_, fun hx => hx.elim, fun hx => hx.elim⟩
      · simp only [List.append_nil]
        rw [Crc.crc_correct]
      · rw [h4]
        exact h7
      · rw [h8, h4]; simp only [Pipe.todo]; omega
      · rw [h8, h4]; simp only [Pipe.todo]; omega
    · rw [if_neg hp]
      have hmin : min d.pending.length hrest.length = d.pending.length := by omega
      rw [hmin] at p1 p2
      rw [List.take_length] at p1
      rw [List.drop_length, List.nil_append] at p2
      refine ⟨_, _, rfl, ⟨hrest.drop d.pending.length, s, tc, gs, tl, ?_, ?_, p2, h4, h5, h6, h7, rfl⟩, ?_, rfl, ?_,
        fun hx => hx.elim, fun hx => hx.elim⟩
      · rw [← h1, List.append_assoc]
        congr 1
        conv_rhs => rw [← List.take_append_drop d.pending.length hrest]
        rw [← p1]
      · intro h0
        have := congrArg List.length h0
        rw [List.length_drop, List.length_nil] at this
        omega
      · rw [h8, List.length_drop]; omega
      · intro h0
        exfalso
        have := congrArg List.length h3
        rw [h0] at this
        simp only [List.length_append, List.length_nil] at this
        omega
  | body b =>
    rw [hst] at hd
    obtain ⟨bdone, brest, srest, rest, tc, gs, tl, h1, h2, h3, h4, h5, h6, h7, h8, h9⟩ := hd
    obtain ⟨m, n, x, rest', e1, k1, k2, k3, k4, k5, k6, k7, k8, k9⟩ := rest_input h5 h6 h4
    simp only
    unfold Body.input
    rw [e1]
    have hcrc : (if d.skip then b.crc else Crc.update b.crc (d.pending.take n)) =
        (if d.skip then Crc.init else crc32c (h ++ (bdone ++ brest.take n))) := by
      cases hs : d.skip with
      | true => rw [h7, hs]; rfl
      | false =>
        rw [h7, hs]
        simp only [Bool.false_eq_true, if_false]
        rw [Frame.crc_append, k4, List.append_assoc]
    have hbody : bdone ++ brest.take n ++ brest.drop n = body := by
      rw [List.append_assoc, List.take_append_drop, h1]
    have hrok : ROk cm dw (2 ^ w) F tc gs tl (m.unread false ++ rest' false) (rest' true)
        { b.rcv with litRx := { b.rcv.litRx with buf := m.unread true } } E := by
      obtain ⟨q1, q2, q3, q4⟩ := h8
      refine ⟨?_, q2, ?_, q4.congr rfl rfl rfl rfl⟩
      · rw [k7, List.append_assoc, ← k8]; exact q1
      · rw [k7]
        rw [k8] at q3
        exact q3.push
    have hlen := congrArg List.length h2
    rw [List.length_append, ht] at hlen
    simp only
    by_cases hbr : brest.drop n = []
    · -- all of the streams are accepted
      rw [hbr] at k6
      obtain ⟨hdone, -⟩ := k6.nil
      have hsaw : m.sawEof = true := by simp [Mux.Mux.sawEof, hdone]
      rw [hbr, List.nil_append] at k5
      by_cases h8' : b.sum.length = 8
      · rw [if_neg (by simp [h8'])]
        have hsr : srest = [] := List.eq_nil_of_length_eq_zero (by omega)
        refine ⟨_, _, rfl, ⟨bdone ++ brest.take n, [], srest, rest', tc, gs, tl, ?_, h2, fun hx => absurd rfl hx, k5, k1, k6,
          hcrc, hrok, rfl⟩, ?_, rfl, ?_, ?_, ?_⟩
        · rw [← hbody, hbr]
        · rw [h9]; simp only [Pipe.todo, List.length_nil]; omega
        · intro _
          by_cases hb0 : brest = []
          · rw [hb0] at h6
            exact Or.inr ⟨h6.nil.1, h8'⟩
          · left
            have := List.length_pos_iff.mpr hb0
            rw [h9]; simp only [Pipe.todo, List.length_nil]; omega
        · exact fun hx => ⟨hdone, hx.2⟩
        · exact fun hx => ⟨hdone, hx.2⟩
      · rw [if_pos ⟨hsaw, h8'⟩]
        have hk : min (d.pending.drop n).length (8 - b.sum.length) =
            min (d.pending.drop n).length srest.length := by
          have : 8 - b.sum.length = srest.length := by omega
          rw [this]
        obtain ⟨p1, p2⟩ := pre_split (d.pending.drop n) srest fut tail k5
        rw [hk]
        simp only
        refine ⟨_, _, rfl, ⟨bdone ++ brest.take n, [], srest.drop (min (d.pending.drop n).length srest.length), rest', tc, gs, tl,
          ?_, ?_, fun hx => absurd rfl hx, p2, k1, k6, hcrc, hrok, rfl⟩, ?_, rfl, ?_, ?_, ?_⟩
        · rw [← hbody, hbr]
        · simp only
          rw [p1, List.append_assoc, List.take_append_drop, h2]
        · rw [h9, List.length_drop]; simp only [Pipe.todo, List.length_nil]; omega
        · intro h0
          left
          rw [h0, List.append_nil] at k5
          have hl := congrArg List.length k5
          rw [List.length_append] at hl
          rw [h9, List.length_drop]; simp only [Pipe.todo, List.length_nil]; omega
        · exact fun hx => absurd hx.2 h8'
        · exact fun hx => absurd hx.2.1 h8'
    · -- the end marker is still to come
      obtain ⟨z, zs, hz⟩ : ∃ z zs, brest.drop n = z :: zs := by
        cases hq : brest.drop n with
        | nil => exact absurd hq hbr
        | cons z zs => exact ⟨z, zs, rfl⟩
      have hnd : m.eof ≠ .done := by
        rw [hz] at k6; exact k6.cons.1
      have hsaw : m.sawEof = false := by simp [Mux.Mux.sawEof, hnd]
      have hb0 : brest ≠ [] := by
        intro h0; rw [h0] at hbr; simp at hbr
      have hsum := h3 hb0
      obtain ⟨z', zs', hz'⟩ : ∃ z zs, brest = z :: zs := by
        cases hq : brest with
        | nil => exact absurd hq hb0
        | cons z zs => exact ⟨z, zs, rfl⟩
      have hnd0 : b.mux.eof ≠ .done := by
        rw [hz'] at h6; exact h6.cons.1
      rw [if_neg (by simp [hsaw])]
      refine ⟨_, _, rfl, ⟨bdone ++ brest.take n, brest.drop n, srest, rest', tc, gs, tl, hbody, h2, fun _ => hsum, k5, k1, k6,
        hcrc, hrok, rfl⟩, ?_, rfl, ?_, fun hx => absurd hx.1 hnd0, fun hx => absurd hx.1 hnd0⟩
      · rw [h9, List.length_drop]; simp only [Pipe.todo]; omega
      · intro h0
        left
        have hpne : d.pending ≠ [] := by
          intro hp0
          rw [h0, hp0, hz'] at h4
          cases h4
        have := k9 hpne hb0
        rw [h9, List.length_drop]; simp only [Pipe.todo]; omega

theorem hand_ok {d : Dec} {fut E : List UInt8} {T : Nat} (hd : FOk cm dw (2 ^ w) F h body tr tail d fut E T) :
    ∃ d', d.act dw .hand = .ok (d', []) ∧ FOk cm dw (2 ^ w) F h body tr tail d' fut E T ∧ d'.skip = d.skip ∧
      (d.Took → d'.Took) ∧ (d.AllDone → d'.AllDone) ∧
      (d.Took → ∀ b, d'.stage = .body b → b.mux.unread false = []) := by
  unfold FOk at hd
  unfold Dec.act Dec.Took Dec.AllDone
  cases hst : d.stage with
  | header got =>
    rw [hst] at hd
    refine ⟨d, rfl, ?_, rfl, fun hx => hx.elim, fun hx => hx.elim, fun hx => hx.elim⟩
    unfold FOk
    rw [hst]
    exact hd
  | body b =>
    rw [hst] at hd
    obtain ⟨bdone, brest, srest, rest, tc, gs, tl, h1, h2, h3, h4, h5, h6, h7, h8, h9⟩ := hd
    simp only
    unfold Body.hand
    by_cases hu : b.mux.unread false = []
    · rw [if_pos hu]
      refine ⟨_, rfl, ⟨bdone, brest, srest, rest, tc, gs, tl, h1, h2, h3, h4, h5, h6, h7, h8, h9⟩, rfl, id, id, ?_⟩
      intro _ b' hb'
      cases hb'
      exact hu
    · rw [if_neg hu]
      obtain ⟨k1, k2, k3, k4, k5, k6⟩ := takeBuf_spec h5 false
      refine ⟨_, rfl, ⟨bdone, brest, srest, rest, tc, gs, tl, h1, h2, h3, h4, k1, ?_, h7, ?_, h9⟩, rfl, id, id, ?_⟩
      · refine h6.congr k5 k6 (fun i => if i then [] else b.mux.unread false) fun i => ?_
        cases i with
        | false => simp [k3]
        | true => rw [k4 true (by simp)]; rfl
      · obtain ⟨q1, q2, q3, q4⟩ := h8
        refine ⟨?_, q2, ?_, q4.congr rfl rfl rfl rfl⟩
        · rw [k3, List.nil_append, k2]
          exact q1.push
        · simp only
          rw [k4 true (by simp)]
          exact q3
      · intro _ b' hb'
        cases hb'
        exact k3

theorem recycle_ok (mem : List UInt8) {d : Dec} {fut E : List UInt8} {T : Nat}
    (hd : FOk cm dw (2 ^ w) F h body tr tail d fut E T) :
    ∃ d', d.act dw (.recycle mem) = .ok (d', []) ∧ FOk cm dw (2 ^ w) F h body tr tail d' fut E T ∧ d'.skip = d.skip := by
  unfold FOk at hd
  unfold Dec.act
  cases hst : d.stage with
  | header got =>
    rw [hst] at hd
    refine ⟨d, rfl, ?_, rfl⟩
    unfold FOk
    rw [hst]
    exact hd
  | body b =>
    rw [hst] at hd
    obtain ⟨bdone, brest, srest, rest, tc, gs, tl, h1, h2, h3, h4, h5, h6, h7, h8, h9⟩ := hd
    simp only
    obtain ⟨k1, k2, k5, k6⟩ := recycle_spec h5 false mem
    refine ⟨_, rfl, ⟨bdone, brest, srest, rest, tc, gs, tl, h1, h2, h3, h4, k1, ?_, h7, ?_, h9⟩, rfl⟩
    · exact h6.congr k5 k6 (fun _ => []) fun i => by rw [k2, List.nil_append]
    · simp only
      rw [k2, k2]
      exact h8

theorem worker_ok {d : Dec} {fut E : List UInt8} {T : Nat} (hd : FOk cm dw (2 ^ w) F h body tr tail d fut E T) :
    ∃ d' T', d.act dw .worker = .ok (d', []) ∧ FOk cm dw (2 ^ w) F h body tr tail d' fut E T' ∧ T' ≤ T ∧
      d'.skip = d.skip ∧ (d.Took → d'.Took) ∧ (d.AllDone → d'.AllDone) ∧
      (d.Took → (∀ b, d.stage = .body b → b.mux.unread false = [] ∧ b.rcv.core.at_ ≠ .stop) → T' < T) ∧
      (∀ b, d.stage = .body b → b.rcv.core.at_ = .stop → d' = d) := by
  unfold FOk at hd
  unfold Dec.act Dec.Took Dec.AllDone
  cases hst : d.stage with
  | header got =>
    rw [hst] at hd
    refine ⟨d, T, rfl, ?_, Nat.le_refl _, rfl, fun hx => hx.elim, fun hx => hx.elim, fun hx => hx.elim, ?_⟩
    · unfold FOk
      rw [hst]
      exact hd
    · intro b hb; cases hb
  | body b =>
    rw [hst] at hd
    obtain ⟨bdone, brest, srest, rest, tc, gs, tl, h1, h2, h3, h4, h5, h6, h7, h8, h9⟩ := hd
    simp only
    obtain ⟨r1, tc', gs', e1, k1, k2, k3, k4, k5⟩ := worker_step h8
    rw [worker_lit] at e1
    cases hw : b.rcv.worker with
    | fail => rw [hw] at e1; cases e1
    | panic => rw [hw] at e1; cases e1
    | ok r =>
      rw [hw] at e1
      simp only [Codec.Res.bind, Codec.Res.ok.injEq] at e1
      have hlit : r.litRx = b.rcv.litRx := by
        have := worker_lit b.rcv b.rcv.litRx
        have h0 : ({ b.rcv with litRx := b.rcv.litRx } : Rcv) = b.rcv := rfl
        rw [h0, hw] at this
        simp only [Codec.Res.bind, Codec.Res.ok.injEq] at this
        rw [this]
      have hr1 : r1 = { r with litRx := { r.litRx with buf := b.mux.unread true } } := by
        rw [← e1, hlit]
      have hat : r.at_ = b.rcv.at_ := by
        rw [← e1] at k2; exact k2
      refine ⟨_, _, rfl, ⟨bdone, brest, srest, rest, tc', gs', tl, h1, h2, h3, h4, h5, h6, h7, ?_, rfl⟩, ?_, rfl, id, ?_, ?_, ?_⟩
      · simp only
        rw [← hr1]
        exact k1
      · rw [h9]
        rw [hr1] at k4
        simp only [Pipe.todo] at k4 ⊢
        omega
      · intro hx
        exact ⟨hx.1, hx.2.1, hat.trans hx.2.2⟩
      · intro htook hb
        obtain ⟨u1, u2⟩ := hb b rfl
        have hbr : brest = [] := by
          cases hq : brest with
          | nil => rfl
          | cons z zs => rw [hq] at h6; exact absurd htook.1 h6.cons.1
        rw [hbr] at h6
        have := k5 (by rw [u1, h6.nil.2]; rfl) u2
        rw [h9]
        rw [hr1] at this
        simp only [Pipe.todo] at this ⊢
        omega
      · intro b' hb' hs
        cases hb'
        have : b.rcv.worker = .ok b.rcv := by rw [Rcv.worker, if_pos hs]
        rw [this] at hw
        cases hw
        cases d
        simp only at hst
        rw [hst]

theorem main_ok (hw : 8 ≤ 2 ^ w) (room : Nat) {d : Dec} {fut E : List UInt8} {T : Nat}
    (hd : FOk cm dw (2 ^ w) F h body tr tail d fut E T) :
    ∃ d' o T', d.act dw (.main room) = .ok (d', o) ∧ o.length ≤ room ∧
      FOk cm dw (2 ^ w) F h body tr tail d' fut (E ++ o) T' ∧ T' ≤ T ∧
      d'.skip = d.skip ∧ (d.Took → d'.Took) ∧ (d.AllDone → d'.AllDone ∧ o = []) ∧
      (d.Took → 0 < room → (∀ b, d.stage = .body b → b.rcv.at_ ≠ .finished ∧ b.rcv.core.at_ = .stop) → T' < T) := by
  unfold FOk at hd
  unfold Dec.act Dec.Took Dec.AllDone
  cases hst : d.stage with
  | header got =>
    rw [hst] at hd
    refine ⟨d, [], T, rfl, by simp, ?_, Nat.le_refl _, rfl, fun hx => hx.elim, fun hx => hx.elim, fun hx => hx.elim⟩
    unfold FOk
    rw [hst, List.append_nil]
    exact hd
  | body b =>
    rw [hst] at hd
    obtain ⟨bdone, brest, srest, rest, tc, gs, tl, h1, h2, h3, h4, h5, h6, h7, h8, h9⟩ := hd
    simp only [Body.main]
    obtain ⟨r1, o, tl', e1, k1, k2, k3, k4⟩ := main_step hw room h8
    obtain ⟨k, hk⟩ := main_buf e1
    simp only at hk
    rw [drop_min] at hk
    obtain ⟨k', hk'⟩ : ∃ k', k' = min k (b.mux.unread true).length := ⟨_, rfl⟩
    rw [← hk'] at hk
    have hlen : (b.mux.unread true).length - r1.litRx.buf.length = k' := by
      rw [hk, List.length_drop]; omega
    rw [e1]
    simp only [Codec.Res.bind]
    rw [hlen]
    obtain ⟨m1, m2, m3, m4, m5⟩ := unread_consume h5 true k' (by omega)
    have hr1 : r1 = { r1 with litRx := { r1.litRx with buf := (b.mux.consume true k').unread true } } := by
      rw [m2, ← hk]
    refine ⟨_, o, _, rfl, k1, ⟨bdone, brest, srest, rest, tc, gs, tl', h1, h2, h3, h4, m1, ?_, h7, ?_, rfl⟩, ?_, rfl, id, ?_, ?_⟩
    · refine h6.congr m4 m5 (fun i => if i then (b.mux.unread true).take k' else []) fun i => ?_
      cases i with
      | false => rw [m3 false (by simp)]; rfl
      | true => rw [m2]; simp
    · simp only
      rw [← hr1, m3 false (by simp)]
      exact k2
    · rw [h9]
      simp only [Pipe.todo] at k3 ⊢
      omega
    · intro hx
      have e2 : Rcv.main dw { b.rcv with litRx := { b.rcv.litRx with buf := b.mux.unread true } } room =
          .ok ({ b.rcv with litRx := { b.rcv.litRx with buf := b.mux.unread true } }, []) := by
        simp only [Rcv.main, hx.2.2]
      rw [e2] at e1
      simp only [Codec.Res.ok.injEq, Prod.mk.injEq] at e1
      refine ⟨⟨hx.1, hx.2.1, ?_⟩, e1.2.symm⟩
      show r1.at_ = _
      rw [← e1.1]
      exact hx.2.2
    · intro htook hroom hb
      obtain ⟨u1, u2⟩ := hb b rfl
      have hbr : brest = [] := by
        cases hq : brest with
        | nil => rfl
        | cons z zs => rw [hq] at h6; exact absurd htook.1 h6.cons.1
      rw [hbr] at h6
      have := k4 (h6.nil.2 true) hroom u1 u2
      rw [h9]
      simp only [Pipe.todo] at this ⊢
      omega

/-- A round: look at the input, hand over command bytes, let both sides make a step. -/
def round (room : Nat) : List Act := [.input, .hand, .worker, .main room]

/-- Rounds with the given output space. -/
def frounds (rooms : List Nat) : List Act := rooms.flatMap round

theorem round_ok (hg : GoodHeader h w) (ht : tr.length = 8) (hw : 8 ≤ 2 ^ w) (room : Nat) {d : Dec} {E : List UInt8} {T : Nat}
    (hd : FOk cm dw (2 ^ w) F h body tr tail d [] E T) :
    ∃ d' o T', run dw d (round room) = .ok (d', o) ∧ FOk cm dw (2 ^ w) F h body tr tail d' [] (E ++ o) T' ∧ T' ≤ T ∧
      d'.skip = d.skip ∧ (d.AllDone → d'.AllDone) ∧ (0 < room → T' < T ∨ d.AllDone) := by
  obtain ⟨d1, T1, e1, f1, l1, s1, p1, t1, a1⟩ := input_ok hg ht hd
  obtain ⟨d2, e2, f2, s2, t2, a2, u2⟩ := hand_ok f1
  obtain ⟨d3, T3, e3, f3, l3, s3, t3, a3, p3, q3⟩ := worker_ok f2
  obtain ⟨d4, o, T4, e4, -, f4, l4, s4, t4, a4, p4⟩ := main_ok hw room f3
  refine ⟨d4, o, T4, ?_, f4, by omega, by rw [s4, s3, s2, s1], fun hx => (a4 (a3 (a2 (a1 hx)))).1, ?_⟩
  · have e1' : d.act dw .input = .ok (d1, []) := by simp only [Dec.act, e1, Codec.Res.bind]
    simp only [round, run, e1', e2, e3, e4, Codec.Res.bind, List.nil_append, List.append_nil]
  · intro hroom
    rcases p1 rfl with hlt | htook
    · left; omega
    have htook1 := t1 htook
    have htook2 := t2 htook1
    -- all bytes are in
    cases hst : d2.stage with
    | header got => simp only [Dec.Took, hst] at htook2
    | body b2 =>
      have hun := u2 htook1 b2 hst
      by_cases hstop : b2.rcv.core.at_ = .stop
      · have hd3 := q3 b2 hst hstop
        by_cases hfin : b2.rcv.at_ = .finished
        · right
          -- input and hand did not change the decoders
          cases hs0 : d.stage with
          | header got => simp only [Dec.Took, hs0] at htook
          | body b =>
            have hb1 : ∃ b1, d1.stage = .body b1 ∧ b1.rcv = b.rcv := by
              unfold Dec.input at e1
              rw [hs0] at e1
              simp only at e1
              cases hbi : b.input d.skip d.pending with
              | none => rw [hbi] at e1; cases e1
              | some y =>
                rw [hbi] at e1
                cases e1
                refine ⟨_, rfl, ?_⟩
                unfold Body.input at hbi
                cases hds : Mux.deserialize b.mux d.pending with
                | none => rw [hds] at hbi; cases hbi
                | some z =>
                  rw [hds] at hbi
                  simp only at hbi
                  split at hbi <;> (cases hbi; rfl)
            obtain ⟨b1, hb1, hr1⟩ := hb1
            have hb2 : b2.rcv.at_ = b1.rcv.at_ := by
              unfold Dec.act at e2
              rw [hb1] at e2
              cases e2
              simp only [Stage.body.injEq] at hst
              rw [← hst]
              unfold Body.hand
              split <;> rfl
            simp only [Dec.Took, hs0] at htook
            simp only [Dec.AllDone, hs0]
            exact ⟨htook.1, htook.2, by rw [← hr1, ← hb2]; exact hfin⟩
        · left
          have := p4 (by rw [hd3]; exact htook2) hroom (by
            intro b' hb'
            rw [hd3, hst] at hb'
            cases hb'
            exact ⟨hfin, hstop⟩)
          omega
      · left
        have := p3 htook2 (by
          intro b' hb'
          rw [hst] at hb'
          cases hb'
          exact ⟨hun, hstop⟩)
        omega

theorem run_append (d d' d'' : Dec) (as bs : List Act) (o o' : List UInt8) (h : run dw d as = .ok (d', o))
    (h' : run dw d' bs = .ok (d'', o')) : run dw d (as ++ bs) = .ok (d'', o ++ o') := by
  induction as generalizing d o with
  | nil =>
    simp only [run, Codec.Res.ok.injEq, Prod.mk.injEq] at h
    obtain ⟨rfl, rfl⟩ := h
    simpa using h'
  | cons a as ih =>
    simp only [run, List.cons_append] at h ⊢
    cases ha : d.act dw a with
    | fail => simp [ha, Codec.Res.bind] at h
    | panic => simp [ha, Codec.Res.bind] at h
    | ok x =>
      rw [ha] at h
      simp only [Codec.Res.bind] at h ⊢
      cases hr : run dw x.1 as with
      | fail => simp [hr] at h
      | panic => simp [hr] at h
      | ok y =>
        rw [hr] at h
        simp only [Codec.Res.ok.injEq, Prod.mk.injEq] at h
        obtain ⟨rfl, rfl⟩ := h
        have := ih x.1 y.2 hr
        rw [this]
        simp

theorem frounds_finish (hg : GoodHeader h w) (ht : tr.length = 8) (hw : 8 ≤ 2 ^ w) : ∀ (rooms : List Nat) {d : Dec}
    {E : List UInt8} {T : Nat}, FOk cm dw (2 ^ w) F h body tr tail d [] E T → (∀ k ∈ rooms, 0 < k) →
    (d.AllDone ∨ T ≤ rooms.length) →
    ∃ d' o T', run dw d (frounds rooms) = .ok (d', o) ∧ FOk cm dw (2 ^ w) F h body tr tail d' [] (E ++ o) T' ∧
      d'.skip = d.skip ∧ d'.AllDone := by
  intro rooms
  induction rooms with
  | nil =>
    intro d E T hd _ hor
    refine ⟨d, [], T, rfl, by rw [List.append_nil]; exact hd, rfl, ?_⟩
    rcases hor with ha | hT
    · exact ha
    · unfold FOk at hd
      unfold Dec.AllDone
      rw [List.length_nil] at hT
      cases hst : d.stage with
      | header got =>
        rw [hst] at hd
        obtain ⟨hrest, s, tc, gs, tl, -, h2, -, -, -, -, -, h8⟩ := hd
        have := List.length_pos_iff.mpr h2
        omega
      | body b =>
        rw [hst] at hd
        obtain ⟨bdone, brest, srest, rest, tc, gs, tl, h1, h2, h3, h4, h5, h6, h7, h8, h9⟩ := hd
        have hb0 : brest = [] := List.eq_nil_of_length_eq_zero (by omega)
        have hs0 : srest = [] := List.eq_nil_of_length_eq_zero (by omega)
        rw [hb0] at h6
        refine ⟨h6.nil.1, ?_, ?_⟩
        · rw [hs0, List.append_nil] at h2; rw [h2, ht]
        · have : b.rcv.at_.rank = 0 := by simp only [Pipe.todo] at h9; omega
          cases hat : b.rcv.at_ with
          | finished => rfl
          | idle => rw [hat] at this; simp [MainAt.rank] at this
          | content c => rw [hat] at this; simp [MainAt.rank] at this
          | filling c => rw [hat] at this; simp [MainAt.rank] at this
  | cons room rooms ih =>
    intro d E T hd hpos hor
    obtain ⟨d1, o1, T1, e1, f1, l1, s1, a1, p1⟩ := round_ok hg ht hw room hd
    have hor1 : d1.AllDone ∨ T1 ≤ rooms.length := by
      rcases p1 (hpos room (by simp)) with hlt | ha
      · rcases hor with ha | hT
        · exact Or.inl (a1 ha)
        · right; rw [List.length_cons] at hT; omega
      · exact Or.inl (a1 ha)
    obtain ⟨d', o, T', e2, f2, s2, a2⟩ := ih f1 (fun k hk => hpos k (by simp [hk])) hor1
    refine ⟨d', o1 ++ o, T', ?_, by rw [← List.append_assoc]; exact f2, s2.trans s1, a2⟩
    have : frounds (room :: rooms) = round room ++ frounds rooms := by simp [frounds]
    rw [this]
    exact run_append _ _ _ _ _ _ _ e1 e2

theorem act_ok (hg : GoodHeader h w) (ht : tr.length = 8) (hw : 8 ≤ 2 ^ w) (a : Act) {d : Dec} {fut E : List UInt8} {T : Nat}
    (hd : FOk cm dw (2 ^ w) F h body tr tail d (fed [a] ++ fut) E T) :
    ∃ d' o T', d.act dw a = .ok (d', o) ∧ FOk cm dw (2 ^ w) F h body tr tail d' fut (E ++ o) T' ∧ d'.skip = d.skip := by
  cases a with
  | more piece =>
    refine ⟨{ d with pending := d.pending ++ piece }, [], T, rfl, ?_, rfl⟩
    simp only [fed, List.append_nil] at hd ⊢
    unfold FOk at hd ⊢
    simp only
    cases hst : d.stage with
    | header got =>
      rw [hst] at hd
      simp only at hd ⊢
      rw [List.append_assoc]
      exact hd
    | body b =>
      rw [hst] at hd
      simp only at hd ⊢
      rw [List.append_assoc]
      exact hd
  | input =>
    simp only [fed, List.nil_append] at hd
    obtain ⟨d1, T1, e1, f1, -, s1, -⟩ := input_ok hg ht hd
    exact ⟨d1, [], T1, by simp only [Dec.act, e1, Codec.Res.bind], by rw [List.append_nil]; exact f1, s1⟩
  | hand =>
    simp only [fed, List.nil_append] at hd
    obtain ⟨d1, e1, f1, s1, -⟩ := hand_ok hd
    exact ⟨d1, [], T, e1, by rw [List.append_nil]; exact f1, s1⟩
  | recycle mem =>
    simp only [fed, List.nil_append] at hd
    obtain ⟨d1, e1, f1, s1⟩ := recycle_ok mem hd
    exact ⟨d1, [], T, e1, by rw [List.append_nil]; exact f1, s1⟩
  | worker =>
    simp only [fed, List.nil_append] at hd
    obtain ⟨d1, T1, e1, f1, -, s1, -⟩ := worker_ok hd
    exact ⟨d1, [], T1, e1, by rw [List.append_nil]; exact f1, s1⟩
  | main room =>
    simp only [fed, List.nil_append] at hd
    obtain ⟨d1, o, T1, e1, -, f1, -, s1, -⟩ := main_ok hw room hd
    exact ⟨d1, o, T1, e1, f1, s1⟩

theorem run_ok (hg : GoodHeader h w) (ht : tr.length = 8) (hw : 8 ≤ 2 ^ w) : ∀ (acts : List Act) {d : Dec} {fut E : List UInt8}
    {T : Nat}, FOk cm dw (2 ^ w) F h body tr tail d (fed acts ++ fut) E T →
    ∃ d' o T', run dw d acts = .ok (d', o) ∧ FOk cm dw (2 ^ w) F h body tr tail d' fut (E ++ o) T' ∧ d'.skip = d.skip := by
  intro acts
  induction acts with
  | nil =>
    intro d fut E T hd
    exact ⟨d, [], T, rfl, by simpa [fed] using hd, rfl⟩
  | cons a as ih =>
    intro d fut E T hd
    have hf : fed (a :: as) = fed [a] ++ fed as := by cases a <;> simp [fed]
    rw [hf, List.append_assoc] at hd
    obtain ⟨d1, o1, T1, e1, f1, s1⟩ := act_ok hg ht hw a hd
    obtain ⟨d2, o2, T2, e2, f2, s2⟩ := ih f1
    refine ⟨d2, o1 ++ o2, T2, ?_, by rw [← List.append_assoc]; exact f2, s2.trans s1⟩
    simp only [run, e1, Codec.Res.bind, e2]

/-- What the invariant says about the output and the verdict. -/
theorem fok_sum {d : Dec} {fut E : List UInt8} {T : Nat} (htl : tr.length = 8)
    (hsum : sumOk d.skip (if d.skip then Crc.init else crc32c (h ++ body)) tr = true)
    (hd : FOk cm dw (2 ^ w) F h body tr tail d fut E T) :
    E <+: F.drop (2 ^ w) ∧ d.verdict ≠ .failure ∧
      (d.verdict = .success → E = F.drop (2 ^ w) ∧ d.pending ++ fut = tail) ∧
      (d.AllDone → d.verdict = .success) := by
  unfold FOk at hd
  unfold Dec.verdict Dec.AllDone
  cases hst : d.stage with
  | header got =>
    rw [hst] at hd
    obtain ⟨hrest, s, tc, gs, tl, -, -, -, h4, -⟩ := hd
    exact ⟨by rw [h4]; exact List.nil_prefix, by simp, by simp, fun hx => hx.elim⟩
  | body b =>
    rw [hst] at hd
    obtain ⟨bdone, brest, srest, rest, tc, gs, tl, h1, h2, h3, h4, h5, h6, h7, h8, h9⟩ := hd
    have hpre := h8.main.prefix
    simp only
    have h2l := congrArg List.length h2
    rw [List.length_append, htl] at h2l
    have key : b.sum.length = 8 → sumOk d.skip b.crc b.sum = true ∧ brest = [] ∧ srest = [] := by
      intro h8'
      have hs : srest = [] := List.eq_nil_of_length_eq_zero (by omega)
      have hb : brest = [] := by
        cases hq : brest with
        | nil => rfl
        | cons z zs =>
          have := h3 (by rw [hq]; simp)
          rw [this] at h8'
          cases h8'
      refine ⟨?_, hb, hs⟩
      rw [hs, List.append_nil] at h2
      rw [hb, List.append_nil] at h1
      rw [h2, h7, h1]
      exact hsum
    by_cases hfin : b.rcv.at_ = .finished
    · rw [if_neg (by simp [hfin])]
      by_cases h8' : b.sum.length = 8
      · obtain ⟨k1, k2, k3⟩ := key h8'
        rw [if_neg (by simp [h8']), if_pos k1]
        refine ⟨hpre, by simp, fun _ => ⟨?_, ?_⟩, fun _ => rfl⟩
        · have := h8.main
          unfold MainOk at this
          simp only [hfin] at this
          exact this.2
        · rw [k2, k3] at h4
          simpa using h4
      · rw [if_pos h8']
        exact ⟨hpre, by simp, by simp, fun hx => absurd hx.2.1 h8'⟩
    · rw [if_pos hfin]
      exact ⟨hpre, by simp, by simp, fun hx => absurd hx.2.2 hfin⟩

theorem sumOk_trailer (skip : Bool) (crc : Nat) :
    sumOk skip (if skip then Crc.init else crc) (trailer crc) = true := by
  rw [sumOk_spec _ _ _ rfl]
  refine ⟨fun hsk => ?_, rfl⟩
  rw [hsk]
  rfl

theorem fok_facts {d : Dec} {fut E : List UInt8} {T : Nat} (htr : tr = trailer (crc32c (h ++ body)))
    (hd : FOk cm dw (2 ^ w) F h body tr tail d fut E T) :
    E <+: F.drop (2 ^ w) ∧ d.verdict ≠ .failure ∧
      (d.verdict = .success → E = F.drop (2 ^ w) ∧ d.pending ++ fut = tail) ∧
      (d.AllDone → d.verdict = .success) :=
  fok_sum (by rw [htr]; rfl) (by rw [htr]; exact sumOk_trailer _ _) hd

theorem clegal_flushes : ∀ (ops : List Frame.COp) (c : Frame.Cmp) (rooms : List Nat), Frame.clegal c ops = true →
    Frame.clegal c (ops ++ rooms.map .flush) = true := by
  intro ops
  induction ops with
  | nil =>
    intro c rooms _
    induction rooms generalizing c with
    | nil => rfl
    | cons k rooms ih =>
      simp only [List.nil_append, List.map_cons, Frame.clegal, Frame.COp.allowed, Bool.true_and]
      cases Frame.COp.run c (.flush k) with
      | none => rfl
      | some x => exact ih x.1 rfl
  | cons op ops ih =>
    intro c rooms h
    simp only [Frame.clegal, List.cons_append, Bool.and_eq_true] at h ⊢
    refine ⟨h.1, ?_⟩
    cases hr : op.run c with
    | none => rfl
    | some x => rw [hr] at h; exact ih x.1 rooms h.2

theorem coded_flushes (i : Bool) (rooms : List Nat) : Frame.coded i (rooms.map .flush) = [] := by
  induction rooms with
  | nil => rfl
  | cons k rooms ih => simpa [Frame.coded] using ih

/-- For every pair of streams there is a history of the compressor that writes them and ends well. -/
theorem file_exists (w : UInt8) (a b : List UInt8) :
    ∃ ops c file, Frame.clegal (.new w) ops = true ∧ Frame.coded false ops = a ∧ Frame.coded true ops = b ∧
      Frame.crun (.new w) ops = some (c, file) ∧ c.stage = .done := by
  have hl : Frame.clegal (.new w) [.begin 16, .code (.push false a), .code (.push true b)] = true := by
    obtain ⟨m1, b1, e1, h1, -⟩ := Mux.mux_push_spec Mux.ok_new false a
    have hm1 : m1.eof = Mux.Mux.new.eof := by rw [h1]
    have hn : Mux.Mux.new.isEof = false := by decide +kernel
    have hn1 : m1.isEof = false := by
      have h0 := hn
      unfold Mux.Mux.isEof at h0 ⊢
      rw [h1]
      simp only
      simp only [Mux.Mux.new] at h0
      simp [Mux.Mux.new]
    simp [Frame.clegal, Frame.COp.allowed, Frame.COp.run, Frame.Cmp.header, Frame.Cmp.new, Frame.Cmp.code, Mux.MOp.allowed,
      Mux.MOp.run, e1, hn, hn1]
    split <;> rfl
  obtain ⟨n, hn⟩ := Frame.flush_finishes w _ hl
  obtain ⟨c, file, e, hd⟩ := hn (List.replicate n 1) (by simp) (by
    intro k hk
    rw [List.eq_of_mem_replicate hk]
    decide)
  refine ⟨_, c, file, clegal_flushes _ _ (List.replicate n 1) hl, ?_, ?_, e, hd⟩
  · simp [Frame.coded, coded_flushes, Mux.MOp.data, -List.map_replicate]
  · simp [Frame.coded, coded_flushes, Mux.MOp.data, -List.map_replicate]

/-- **C45 (and C23, C38).**  Every list of valid commands is accepted by the compressor.  Take any
output of the entropy coders of its two streams, handed to the multiplexer in any pieces, with any
header and output buffers, until flushing reports success: this gives a file.  Decompressing this
file, with checksums or without, followed by any other bytes:

* under every schedule of arrivals, demultiplexing, hand-overs, worker steps and main steps with
  output buffers of any size, nothing fails, the bytes given out are a beginning of the original
  data, the checksum is never rejected, and success is only reported when the output is complete and
  exactly the bytes of the file have been taken;
* once the file has arrived, finitely many rounds with nonempty output buffers report success. -/
theorem whole_file (o : Codec.Opts) (dw : Nat → Nat → Nat → List UInt8) (window : Option Int)
    (room : Nat) (hroom : 0 < room) (xs : List Item)
    (hv : ∀ x ∈ xs, x.Valid o dw (2 ^ (Frame.windowOf window).toNat))
    (hi : Recode.InHistory 0 (xs.map (Item.ringCmd dw))) :
    ∃ fuel0 tc tl, (∀ fuel, fuel0 ≤ fuel →
        sendAll o dw room fuel xs (Snd.init (2 ^ (Frame.windowOf window).toNat)) = some (.ok (tc, tl))) ∧
      (∃ outC, Encodes tc outC) ∧ (∃ outL, Encodes tl outL) ∧
      ∀ outC outL, Encodes tc outC → Encodes tl outL →
      ∀ ops c file, Frame.clegal (.new (Frame.windowOf window)) ops = true →
        Frame.coded false ops = outC → Frame.coded true ops = outL →
        Frame.crun (.new (Frame.windowOf window)) ops = some (c, file) → c.stage = .done →
      ∀ skip tail acts,
        (fed acts <+: file ++ tail →
          ∃ d out, run dw (.new skip) acts = .ok (d, out) ∧ out <+: original dw xs ∧ d.verdict ≠ .failure ∧
            (d.verdict = .success → out = original dw xs ∧ fed acts = file ++ d.pending)) ∧
        (fed acts = file ++ tail →
          ∃ n, ∀ rooms : List Nat, n ≤ rooms.length → (∀ k ∈ rooms, 0 < k) →
            ∃ d, run dw (.new skip) (acts ++ frounds rooms) = .ok (d, original dw xs) ∧
              d.verdict = .success ∧ d.pending = tail) := by
  obtain ⟨wn, hwn⟩ : ∃ wn, wn = (Frame.windowOf window).toNat := ⟨_, rfl⟩
  rw [← hwn] at hv ⊢
  have hg := Frame.own_header_good window
  rw [← hwn] at hg
  have hL : 8 ≤ 2 ^ wn := by
    have h10 : 10 ≤ wn := hg.2.2.2.1
    calc 8 ≤ 2 ^ 10 := by decide
      _ ≤ 2 ^ wn := Nat.pow_le_pow_right (by decide) h10
  obtain ⟨fuel0, tc, tl, h1, h2, h3, h4, h5⟩ := send_spec hL hroom xs hv (snd_init_ok hL)
  have hexp : (Recode.expand (List.replicate (2 ^ wn) 0) (xs.map (Item.ringCmd dw))).drop (2 ^ wn) = original dw xs := by
    have := Recode.ring_spec (List.replicate (2 ^ wn) 0) _ hi
    rw [List.length_replicate] at this
    exact this
  have htc := h4.traceOk h2
  refine ⟨fuel0, tc, tl, h1, ?_, ?_, ?_⟩
  · obtain ⟨ops, out, e, k1, k2, k3, k4⟩ := trace_encode_total tc htc
    exact ⟨out, ops, e, k1, k2, k3, k4⟩
  · obtain ⟨ops, out, e, k1, k2, k3, k4⟩ := trace_encode_total tl h3
    exact ⟨out, ops, e, k1, k2, k3, k4⟩
  intro outC outL ⟨opsC, eC, c1, c2, c3, c4⟩ ⟨opsL, eL, l1, l2, l3, l4⟩ ops c file hleg hcC hcL hrun hdone skip tail
  have hstart := rcv_init_ok hL (feeds_start tc htc opsC c1 c2 outC eC c3 c4 []) h4
    (feeds_start tl h3 opsL l1 l2 outL eL l3 l4 []) h5
  rw [List.append_nil, List.append_nil] at hstart
  obtain ⟨c', out', e', hbody⟩ := Frame.container_layout (Frame.windowOf window) ops hleg
  rw [hrun] at e'
  cases e'
  obtain ⟨body, ⟨s, b1, b2, b3, b4⟩, hfile⟩ := hbody hdone
  rw [Frame.fileOf_eq] at hfile
  obtain ⟨hd, hhd⟩ : ∃ hd, hd = makeHeader (Frame.windowOf window) := ⟨_, rfl⟩
  rw [← hhd] at hfile hg
  rw [hcC] at b3
  rw [hcL] at b4
  rw [← b3, ← b4] at hstart
  obtain ⟨gs, hgs⟩ : ∃ gs, gs = Codec.resultAll o (Snd.init (2 ^ wn)).core (xs.map Item.head) := ⟨_, rfl⟩
  rw [← hgs] at hstart
  have hinit : FOk true dw (2 ^ wn) (Recode.expand (List.replicate (2 ^ wn) 0) (xs.map (Item.ringCmd dw))) hd body
      (trailer (crc32c (hd ++ body))) tail (.new skip) (file ++ tail) []
      (hd.length + body.length + (trailer (crc32c (hd ++ body))).length + todo (2 ^ wn)
        (Recode.expand (List.replicate (2 ^ wn) 0) (xs.map (Item.ringCmd dw))) tc gs tl (Rcv.init (2 ^ wn)) []) := by
    refine ⟨hd, s, tc, gs, tl, rfl, ?_, ?_, rfl, b1, b2, hstart, rfl⟩
    · rw [hhd]; simp [makeHeader, Frame.magic]
    · rw [hfile]; simp [Dec.new]
  intro acts
  constructor
  · intro ⟨fut, hfut⟩
    rw [← hfut] at hinit
    obtain ⟨d, out, T', e1, f1, -⟩ := run_ok hg rfl hL acts hinit
    obtain ⟨g1, g2, g3, -⟩ := fok_facts rfl f1
    rw [List.nil_append, hexp] at g1
    refine ⟨d, out, e1, g1, g2, fun hsu => ?_⟩
    obtain ⟨k1, k2⟩ := g3 hsu
    rw [List.nil_append, hexp] at k1
    refine ⟨k1, ?_⟩
    rw [← k2, ← List.append_assoc] at hfut
    exact List.append_cancel_right hfut
  · intro hfed
    rw [← hfed, ← List.append_nil (fed acts)] at hinit
    obtain ⟨d, out, T', e1, f1, -⟩ := run_ok hg rfl hL acts hinit
    refine ⟨T', fun rooms hn hpos => ?_⟩
    obtain ⟨d', o', T'', e2, f2, -, a2⟩ := frounds_finish hg rfl hL rooms f1 hpos (Or.inr hn)
    obtain ⟨-, -, g3, g4⟩ := fok_facts rfl f2
    obtain ⟨k1, k2⟩ := g3 (g4 a2)
    rw [List.nil_append, hexp] at k1
    rw [List.append_nil] at k2
    exact ⟨d', by rw [← k1]; exact run_append _ _ _ _ _ _ _ e1 e2, g4 a2, k2⟩

/-! ## The theorems are not vacuous -/

/-- The hypotheses of `whole_file` are met by a history with every kind of command and the smallest
window; the rest exists by `file_exists`. -/
example : (∀ x ∈ demoItems, x.Valid Codec.demoOpts demoWords (2 ^ (Frame.windowOf (some 3)).toNat)) ∧
    Recode.InHistory 0 (demoItems.map (Item.ringCmd demoWords)) := by
  have : 2 ^ (Frame.windowOf (some 3)).toNat = 1024 := by decide +kernel
  rw [this]
  exact ⟨demoItems_valid, by simp [demoItems, Item.ringCmd, Recode.InHistory, Recode.Cmd.size, demoWords]⟩

end Divans.File
