import Verif.Filters

/-!
# C98: the example programs compress and decompress are filters that lose nothing silently
-/

namespace Divans.Filters
open Divans.Io Divans.Pipe Divans.Eng Divans.Compressor

variable {σ : Type} {p : Proc σ}

theorem pieces_flatten : ∀ src : List Ev, (pieces src).flatten = before src
  | [] => rfl
  | .data [] :: _ => rfl
  | .data (b :: bs) :: t => by simp [pieces, before, pieces_flatten t]
  | .interrupted :: t => pieces_flatten t
  | .fail :: t => pieces_flatten t

/-- In a source without failures and early ends everything is read. -/
theorem before_clean : ∀ src : List Ev, Clean src → before src = srcBytes src ∧ breaks src = false
  | [], _ => ⟨rfl, rfl⟩
  | .data [] :: _, h => absurd rfl (h (.data []) (by simp)).2
  | .data (b :: bs) :: t, h => by
    have := before_clean t (fun e he => h e (by simp [he]))
    exact ⟨by rw [before, srcBytes, this.1], this.2⟩
  | .interrupted :: t, h => before_clean t (fun e he => h e (by simp [he]))
  | .fail :: _, h => absurd rfl (h .fail (by simp)).1

theorem ok_length {w w' : Writer σ} {bs : List UInt8} {fuel n : Nat} {log log' : List Entry}
    (h : w.write p fuel bs log = some (w', log', .ok n)) : n = bs.length := (write_takes_all h).1

/-- Copying succeeds exactly if the source does not fail and every write succeeds. -/
theorem copyIn_iff (fuel : Nat) : ∀ (src : List Ev) (w : Writer σ) (log : List Entry) (w' : Writer σ) (log' : List Entry),
    copyIn p fuel src w log = some (w', log', true) ↔
      breaks src = false ∧
        writes p fuel ((pieces src).map .write) w log = some (w', log', (pieces src).map fun b => .ok b.length) := by
  intro src
  induction src with
  | nil => intro w log w' log'; simp [copyIn, breaks, pieces, writes]
  | cons e t ih =>
    intro w log w' log'
    match e with
    | .data [] => simp [copyIn, breaks, pieces, writes]
    | .interrupted => exact ih w log w' log'
    | .fail => simp [copyIn, breaks]
    | .data (b :: bs) =>
      simp only [copyIn, breaks, pieces, List.map_cons, writes, wstep]
      cases hw : w.write p fuel (b :: bs) log with
      | none => simp
      | some x =>
        obtain ⟨w1, log1, g⟩ := x
        cases g with
        | ok n =>
          have hn := ok_length hw
          subst hn
          simp only [ih]
          refine and_congr_right fun _ => ?_
          cases writes p fuel ((pieces t).map .write) w1 log1 with
          | none => simp
          | some y => obtain ⟨y1, y2, y3⟩ := y; simp
        | ioErr => simp
        | trailing => simp
        | codecErr => simp

/-- **C98, `compress`: success means success.**  Whatever the codec, the standard input and the standard output do: the program
ends without a panic exactly if the input came to its end without an error, every write of it to the adaptor took all of it, and
the flush succeeded. -/
theorem compress_ok_iff (fuel : Nat) (src : List Ev) (sinkOk : Bool) (w w' : Writer σ) (log : List Entry) :
    compressMain p fuel src sinkOk w = some (w', log, .ok) ↔
      breaks src = false ∧ ∃ n,
        writes p fuel ((pieces src).map .write ++ [.flush sinkOk]) w [] =
          some (w', log, ((pieces src).map fun b => .ok b.length) ++ [.ok n]) := by
  unfold compressMain
  rw [show (∃ n, writes p fuel ((pieces src).map .write ++ [.flush sinkOk]) w [] =
          some (w', log, ((pieces src).map fun b => Put.ok b.length) ++ [.ok n])) ↔
        ∃ n w1 log1, writes p fuel ((pieces src).map .write) w [] = some (w1, log1, (pieces src).map fun b => .ok b.length) ∧
          w1.flush p sinkOk fuel log1 = some (w', log, .ok n) from ?_]
  · cases hc : copyIn p fuel src w [] with
    | none =>
      simp only [reduceCtorEq, false_iff]
      rintro ⟨h1, n, w1, log1, h2, -⟩
      have := (copyIn_iff fuel src w [] w1 log1).2 ⟨h1, h2⟩
      rw [hc] at this
      cases this
    | some x =>
      obtain ⟨w1, log1, ok⟩ := x
      cases ok with
      | false =>
        simp only [Option.some.injEq, Prod.mk.injEq, reduceCtorEq, and_false, false_iff]
        rintro ⟨h1, n, w2, log2, h2, -⟩
        have := (copyIn_iff fuel src w [] w2 log2).2 ⟨h1, h2⟩
        rw [hc] at this
        cases this
      | true =>
        obtain ⟨h1, h2⟩ := (copyIn_iff fuel src w [] w1 log1).1 hc
        rw [h2]
        simp only [h1, true_and, Option.some.injEq, Prod.mk.injEq]
        cases hf : w1.flush p sinkOk fuel log1 with
        | none =>
          simp only [reduceCtorEq, false_iff]
          rintro ⟨n, a, b, ⟨rfl, rfl, -⟩, h⟩
          rw [hf] at h
          cases h
        | some y =>
          obtain ⟨w2, log2, g⟩ := y
          have key : (∃ n a b, (w1 = a ∧ log1 = b ∧ True) ∧ a.flush p sinkOk fuel b = some (w', log, .ok n)) ↔
              ∃ n, some (w2, log2, g) = some (w', log, .ok n) := by
            constructor
            · rintro ⟨n, a, b, ⟨rfl, rfl, -⟩, h⟩
              exact ⟨n, hf ▸ h⟩
            · rintro ⟨n, h⟩
              exact ⟨n, w1, log1, ⟨rfl, rfl, trivial⟩, hf.trans h⟩
          rw [key]
          cases g <;> simp
  · refine exists_congr fun n => ?_
    rw [writes_append]
    cases hw : writes p fuel ((pieces src).map .write) w [] with
    | none => simp
    | some x =>
      obtain ⟨w1, log1, gs⟩ := x
      simp only [Option.bind_some, writes, wstep]
      cases hf : w1.flush p sinkOk fuel log1 with
      | none =>
        simp only [Option.map_none, reduceCtorEq, false_iff]
        rintro ⟨a, b, h, h'⟩
        simp only [Option.some.injEq, Prod.mk.injEq] at h
        obtain ⟨rfl, rfl, -⟩ := h
        rw [hf] at h'
        cases h'
      | some y =>
        obtain ⟨w2, log2, g⟩ := y
        simp only [Option.map_some, Option.some.injEq, Prod.mk.injEq]
        constructor
        · rintro ⟨rfl, rfl, h⟩
          obtain ⟨h1, h2⟩ := List.append_inj' h rfl
          simp only [List.cons.injEq, and_true] at h2
          exact ⟨w1, log1, ⟨rfl, rfl, h1⟩, by rw [hf, h2]⟩
        · rintro ⟨a, b, ⟨rfl, rfl, h1⟩, h2⟩
          rw [hf] at h2
          simp only [Option.some.injEq, Prod.mk.injEq] at h2
          exact ⟨h2.1, h2.2.1, by rw [h1, h2.2.2]⟩

theorem emit_ok {w : Writer σ} {bs : List UInt8} (h : (w.emit bs).2.2 ≠ false) : (w.emit bs).2.1 = .wrote bs := by
  unfold Writer.emit at h ⊢
  split <;> simp_all

theorem loop_kept (total : Nat) : ∀ (fuel : Nat) (w : Writer σ) (left : List UInt8) (log : List Entry) (w' : Writer σ)
    (log' : List Entry) (n : Nat), w.loop p total fuel left log = some (w', log', .ok n) → Entry.writeFailed ∉ log →
      Entry.writeFailed ∉ log' := by
  intro fuel
  induction fuel with
  | zero => intro w left log w' log' n h; cases h
  | succ k ih =>
    intro w left log w' log' n h hl
    simp only [Writer.loop] at h
    split at h
    · cases h
    · rename_i he
      have h2 : Entry.writeFailed ∉ log ++ [Entry.fed left (p.process w.cd left w.cap).2.1 (p.process w.cd left w.cap).2.2.1
          (p.process w.cd left w.cap).2.2.2, (Writer.emit { w with cd := (p.process w.cd left w.cap).1 }
            (p.process w.cd left w.cap).2.2.1).2.1] := by
        rw [emit_ok he]
        simpa using hl
      split at h
      · split at h
        · cases h
        · simp only [Option.some.injEq, Prod.mk.injEq, Put.ok.injEq] at h
          rw [← h.2.1]
          exact h2
      · exact ih _ _ _ _ _ _ h h2
      · simp only [Option.some.injEq, Prod.mk.injEq, Put.ok.injEq] at h
        rw [← h.2.1]
        exact h2
      · cases h

theorem flush_kept (sinkOk : Bool) : ∀ (fuel : Nat) (w : Writer σ) (log : List Entry) (w' : Writer σ)
    (log' : List Entry) (n : Nat), w.flush p sinkOk fuel log = some (w', log', .ok n) → Entry.writeFailed ∉ log →
      Entry.writeFailed ∉ log' := by
  intro fuel
  induction fuel with
  | zero => intro w log w' log' n h; cases h
  | succ k ih =>
    intro w log w' log' n h hl
    simp only [Writer.flush] at h
    split at h
    · simp only [Option.some.injEq, Prod.mk.injEq] at h
      rw [← h.2.1]
      exact hl
    · split at h
      · cases h
      · rename_i he
        have h2 : Entry.writeFailed ∉ log ++ [Entry.closed (p.close w.cd w.cap).2.1 (p.close w.cd w.cap).2.2,
            (Writer.emit { w with cd := (p.close w.cd w.cap).1 } (p.close w.cd w.cap).2.1).2.1] := by
          rw [emit_ok he]
          simpa using hl
        split at h
        · cases h
        · exact ih _ _ _ _ _ h h2
        · exact ih _ _ _ _ _ h h2

theorem copyIn_kept (fuel : Nat) : ∀ (src : List Ev) (w : Writer σ) (log : List Entry) (w' : Writer σ) (log' : List Entry),
    copyIn p fuel src w log = some (w', log', true) → Entry.writeFailed ∉ log → Entry.writeFailed ∉ log' := by
  intro src
  induction src with
  | nil => intro w log w' log' h hl; simp only [copyIn, Option.some.injEq, Prod.mk.injEq] at h; rw [← h.2.1]; exact hl
  | cons e t ih =>
    intro w log w' log' h hl
    match e with
    | .data [] => simp only [copyIn, Option.some.injEq, Prod.mk.injEq] at h; rw [← h.2.1]; exact hl
    | .interrupted => exact ih w log w' log' h hl
    | .fail => simp [copyIn] at h
    | .data (b :: bs) =>
      simp only [copyIn] at h
      split at h
      · cases h
      · rename_i hw
        exact ih _ _ _ _ h (loop_kept _ _ _ _ _ _ _ _ hw hl)
      · simp at h

/-- **C98, `compress`: what success comes with.**  The codec was closed and said that it was done, and the standard output has
received exactly what the codec produced. -/
theorem compress_ok_done {fuel : Nat} {src : List Ev} {sinkOk : Bool} {cd : σ} {cap : Nat} {sink : List Bool} {w' : Writer σ}
    {log : List Entry} (h : compressMain p fuel src sinkOk (Writer.new cd cap true sink) = some (w', log, .ok)) :
    Finished log ∧ sinkBytes log = produced log := by
  have hk : Entry.writeFailed ∉ log := by
    unfold compressMain at h
    split at h
    · cases h
    · cases h
    · rename_i hc
      split at h
      · cases h
      · rename_i hf
        simp only [Option.some.injEq, Prod.mk.injEq] at h
        rw [← h.2.1]
        exact flush_kept _ _ _ _ _ _ _ hf (copyIn_kept _ _ _ _ _ _ hc (by simp))
      · simp only [Option.some.injEq, Prod.mk.injEq, reduceCtorEq, and_false] at h
  obtain ⟨-, n, h1⟩ := (compress_ok_iff fuel src sinkOk _ w' log).1 h
  refine ⟨?_, writer_forwards h1 hk⟩
  rw [writes_append] at h1
  cases hw : writes p fuel ((pieces src).map .write) (Writer.new cd cap true sink) [] with
  | none => rw [hw] at h1; cases h1
  | some x =>
    obtain ⟨w1, log1, gs⟩ := x
    rw [hw] at h1
    simp only [Option.bind_some, writes, wstep] at h1
    cases hf : w1.flush p sinkOk fuel log1 with
    | none => rw [hf] at h1; cases h1
    | some y =>
      obtain ⟨w2, log2, g⟩ := y
      rw [hf] at h1
      simp only [Option.map_some, Option.some.injEq, Prod.mk.injEq] at h1
      obtain ⟨rfl, rfl, h2⟩ := h1
      obtain ⟨-, h3⟩ := List.append_inj' h2 rfl
      simp only [List.cons.injEq, and_true] at h3
      subst h3
      exact flush_finishes_partial hw hf

section
variable {b : Hybrid.Brotli σ} {g : Cfg} {I : Bool → σ → List UInt8 → List Item → Prop} {m : σ → Nat}

/-- **C98, `compress`.**  With an encoder of brotli that takes all its input in every call, an input without errors (in any pieces,
with interruptions) and an output that works, the program ends without a panic and the output has received a file of the input. -/
theorem compress_partial (hb : Hybrid.Meets b g I m) (hg : Hybrid.Greedy b I) {st : σ} (h0 : I false st [] []) (src : List Ev)
    (hsrc : Clean src) (sink : List Bool) (hsink : ∀ x ∈ sink, x = true) :
    ∃ k w log, (∀ f, k ≤ f → ∀ n, k ≤ n →
        compressMain (Hybrid.hyProc b g.o g.dw f) n src true (Hybrid.hyWriter g.window st bufferSize sink) = some (w, log, .ok)) ∧
      Restores g.dw (sinkBytes log) (srcBytes src) := by
  obtain ⟨k, w, log, e, h⟩ := Hybrid.hybrid_writer_partial hb hg h0 bufferSize sink hsink (pieces src)
  obtain ⟨h1, h2⟩ := before_clean src hsrc
  refine ⟨k, w, log, fun f hf n hn => ?_, ?_⟩
  · rw [compress_ok_iff]
    exact ⟨h2, 0, e f hf n hn⟩
  · rw [← h1, ← pieces_flatten]
    exact h

/-- **C98, `compress`, otherwise.**  When brotli leaves some of the first read, the program panics. -/
theorem compress_panics (hb : Hybrid.Meets b g I m) {st : σ} (h0 : I false st [] []) (x : UInt8) (bs : List UInt8) (t : List Ev)
    (hleft : (b.stream st false (x :: bs) 66000).took < (x :: bs).length) (sinkOk : Bool) :
    ∃ k w log, ∀ f, k ≤ f → ∀ n, k ≤ n →
        compressMain (Hybrid.hyProc b g.o g.dw f) n (.data (x :: bs) :: t) sinkOk (Hybrid.hyWriter g.window st bufferSize []) =
          some (w, log, .panic) := by
  obtain ⟨k, w, log, e⟩ := Hybrid.hybrid_writer_rejects hb h0 bufferSize (x :: bs) hleft
  refine ⟨k, w, log, fun f hf n hn => ?_⟩
  unfold compressMain
  simp only [copyIn, e f hf n hn]

end

/-! ## `decompress` -/

/-- How the end of reading becomes the end of the program, if there is an end. -/
def endOf : Stop → Option End
  | .eof => some .ok
  | .ioErr => some .panic
  | .codecErr => some .panic
  | .more => none

/-- While the standard output works, the program writes what is read. -/
theorem copyOut_reads (fuel cap : Nat) : ∀ (rounds : Nat) (s : Reader σ) (sink : List Bool) (log : List Entry), (∀ x ∈ sink, x = true) →
    copyOut p fuel cap rounds s sink log =
      (readToEnd p fuel (List.replicate rounds cap) s log).bind fun x => (endOf x.2.2.2).map fun e => (x.2.2.1, e) := by
  intro rounds
  induction rounds with
  | zero => intro s sink log _; rfl
  | succ r ih =>
    intro s sink log hs
    rw [List.replicate_succ]
    simp only [copyOut, readToEnd]
    cases hr : s.read p fuel cap log with
    | none => rfl
    | some x =>
      obtain ⟨s', log', got⟩ := x
      cases got with
      | ok bs =>
        cases bs with
        | nil => rfl
        | cons y ys =>
          have key : ∀ sink', (∀ x ∈ sink', x = true) →
              ((copyOut p fuel cap r s' sink' log').map fun x => ((y :: ys) ++ x.1, x.2)) =
              ((readToEnd p fuel (List.replicate r cap) s' log').map fun x => (x.1, x.2.1, (y :: ys) ++ x.2.2.1, x.2.2.2)).bind
                fun x => (endOf x.2.2.2).map fun e => (x.2.2.1, e) := by
            intro sink' h'
            rw [ih s' sink' log' h']
            cases readToEnd p fuel (List.replicate r cap) s' log' with
            | none => rfl
            | some z =>
              obtain ⟨z1, z2, z3, z4⟩ := z
              cases z4 <;> rfl
          cases sink with
          | nil => exact key [] (by simp)
          | cons a t =>
            have ha := hs a (by simp)
            subst ha
            exact key t (fun x hx => hs x (by simp [hx]))
      | ioErr => rfl
      | codecErr => rfl

/-- **C98, `decompress`: success means success.**  Whatever the codec, the input and the output do: if the program ends without a
panic, then reading came to the end of file, and everything that was read has been written. -/
theorem decompress_ok (fuel cap : Nat) : ∀ (rounds : Nat) (s : Reader σ) (sink : List Bool) (log : List Entry) (bs : List UInt8),
    copyOut p fuel cap rounds s sink log = some (bs, .ok) →
      ∃ s' log', readToEnd p fuel (List.replicate rounds cap) s log = some (s', log', bs, .eof) := by
  intro rounds
  induction rounds with
  | zero => intro s sink log bs h; cases h
  | succ r ih =>
    intro s sink log bs h
    rw [List.replicate_succ]
    simp only [copyOut] at h
    simp only [readToEnd]
    cases hr : s.read p fuel cap log with
    | none => rw [hr] at h; cases h
    | some x =>
      obtain ⟨s', log', got⟩ := x
      rw [hr] at h
      cases got with
      | ok ys =>
        cases ys with
        | nil =>
          simp only [Option.some.injEq, Prod.mk.injEq, and_true] at h
          subst h
          exact ⟨s', log', rfl⟩
        | cons y ys =>
          have key : ∀ sink', ((copyOut p fuel cap r s' sink' log').map fun x => ((y :: ys) ++ x.1, x.2)) = some (bs, .ok) →
              ∃ s'' log'', ((readToEnd p fuel (List.replicate r cap) s' log').map
                fun x => (x.1, x.2.1, (y :: ys) ++ x.2.2.1, x.2.2.2)) = some (s'', log'', bs, .eof) := by
            intro sink' h'
            simp only [Option.map_eq_some_iff, Prod.mk.injEq] at h'
            obtain ⟨⟨z1, z2⟩, hz, rfl, rfl⟩ := h'
            obtain ⟨a, b, e⟩ := ih s' sink' log' z1 hz
            exact ⟨a, b, by rw [e]; rfl⟩
          cases sink with
          | nil => exact key [] h
          | cons a t =>
            cases a with
            | false => simp at h
            | true => exact key t h
      | ioErr => simp at h
      | codecErr => simp at h

/-- Where reading comes to the end, the program ends with any standard output, having written a beginning of what was read. -/
theorem copyOut_sink (fuel cap : Nat) : ∀ (rounds : Nat) (s : Reader σ) (sink : List Bool) (log : List Entry) (s' : Reader σ)
    (log' : List Entry) (bs : List UInt8), readToEnd p fuel (List.replicate rounds cap) s log = some (s', log', bs, .eof) →
      ∃ bs' e, copyOut p fuel cap rounds s sink log = some (bs', e) ∧ bs' <+: bs ∧ (e = .ok → bs' = bs) := by
  intro rounds
  induction rounds with
  | zero => intro s sink log s' log' bs h; simp [readToEnd] at h
  | succ r ih =>
    intro s sink log s' log' bs h
    rw [List.replicate_succ] at h
    simp only [readToEnd] at h
    simp only [copyOut]
    cases hr : s.read p fuel cap log with
    | none => rw [hr] at h; cases h
    | some x =>
      obtain ⟨s1, log1, got⟩ := x
      rw [hr] at h
      cases got with
      | ok ys =>
        cases ys with
        | nil => exact ⟨[], .ok, rfl, List.nil_prefix, fun _ => by simp_all⟩
        | cons y ys =>
          simp only [Option.map_eq_some_iff, Prod.mk.injEq] at h
          obtain ⟨⟨z1, z2, z3, z4⟩, hz, rfl, rfl, rfl, rfl⟩ := h
          have key : ∀ sink', ∃ bs' e, ((copyOut p fuel cap r s1 sink' log1).map fun x => ((y :: ys) ++ x.1, x.2)) = some (bs', e) ∧
              bs' <+: (y :: ys) ++ z3 ∧ (e = .ok → bs' = (y :: ys) ++ z3) := by
            intro sink'
            obtain ⟨a, b, e, h1, h2⟩ := ih s1 sink' log1 z1 z2 z3 hz
            exact ⟨(y :: ys) ++ a, b, by rw [e]; rfl, (List.prefix_append_right_inj _).2 h1, fun hb => by rw [h2 hb]⟩
          cases sink with
          | nil => exact key []
          | cons a t =>
            cases a with
            | false => exact ⟨[], .panic, rfl, List.nil_prefix, fun h => by cases h⟩
            | true => exact key t
      | ioErr => simp at h
      | codecErr => simp at h

section
variable {dw : Nat → Nat → Nat → List UInt8} {file data : List UInt8}

/-- **C98, `decompress`.**  The program uses the decompressor with a worker thread.  For every file of a compressor, in any pieces
and with interruptions, every scheduler, every nonempty buffer and an output that works, it ends without a panic and has written
the data. -/
theorem decompress_file (hs : Par.Serves dw file data) (sched : Par.Sched) (src : List Ev) (hsrc : Clean src)
    (hb : srcBytes src = file) (cap : Nat) (hcap : 0 < cap) (sink : List Bool) (hsink : ∀ x ∈ sink, x = true) :
    ∃ k, ∀ f, k ≤ f → ∀ n, k ≤ n →
      copyOut (Par.procOf (Par.threaded sched dw) f) n cap (data.length + 1) (Par.readerOf (Par.Dec.new false, 0) bufferSize src) sink [] =
        some (data, .ok) := by
  obtain ⟨k, s, log, bs, st, e, -, -, h⟩ := Par.threaded_reader hs sched false bufferSize src hsrc hb
    (List.replicate (data.length + 1) cap) (fun c hc => by rw [List.eq_of_mem_replicate hc]; exact hcap)
  obtain ⟨rfl, rfl⟩ := h (by simp)
  refine ⟨k, fun f hf n hn => ?_⟩
  rw [copyOut_reads n cap _ _ sink [] hsink, e f hf n hn]
  rfl

/-- **C98, `decompress`, truncated files.**  If the input ends before the file does, the program panics; what it has written is a
beginning of the data. -/
theorem decompress_truncated (hs : Par.Serves dw file data) (sched : Par.Sched) (src : List Ev) (hsrc : Clean src)
    (missing : List UInt8) (hm : missing ≠ []) (hb : srcBytes src ++ missing = file) (cap : Nat) (hcap : 0 < cap)
    (sink : List Bool) (hsink : ∀ x ∈ sink, x = true) :
    ∃ k bs, bs <+: data ∧ ∀ f, k ≤ f → ∀ n, k ≤ n →
      copyOut (Par.procOf (Par.threaded sched dw) f) n cap (data.length + 1) (Par.readerOf (Par.Dec.new false, 0) bufferSize src) sink [] =
        some (bs, .panic) := by
  obtain ⟨k, s, log, bs, st, e, h1, -, h⟩ := Par.threaded_reader_truncated hs sched false bufferSize src hsrc missing hm hb
    (List.replicate (data.length + 1) cap) (fun c hc => by rw [List.eq_of_mem_replicate hc]; exact hcap)
  have hst := h (by simp)
  subst hst
  refine ⟨k, bs, h1, fun f hf n hn => ?_⟩
  rw [copyOut_reads n cap _ _ sink [] hsink, e f hf n hn]
  rfl

/-- **C98 fails for `decompress` when something follows the file**: the program never ends, however long one waits (`none`: the read
after the data does not return within `n` rounds). -/
theorem decompress_hangs (hs : Par.Serves dw file data) (sched : Par.Sched) (src : List Ev) (hsrc : Clean src)
    (tail : List UInt8) (ht : tail ≠ []) (hb : srcBytes src = file ++ tail) (cap : Nat) (hcap : 0 < cap) (sink : List Bool)
    (hsink : ∀ x ∈ sink, x = true) (rounds : Nat) (hr : data.length < rounds) :
    ∀ n, ∃ k, ∀ f, k ≤ f →
      copyOut (Par.procOf (Par.threaded sched dw) f) n cap rounds (Par.readerOf (Par.Dec.new false, 0) bufferSize src) sink [] = none := by
  obtain ⟨j, k, s, log, -, -, h⟩ := Par.threaded_reader_hangs hs sched false bufferSize src hsrc tail ht hb
    (List.replicate rounds cap) (fun c hc => by rw [List.eq_of_mem_replicate hc]; exact hcap) (by simpa using hr)
  intro n
  obtain ⟨k, e⟩ := h n
  refine ⟨k, fun f hf => ?_⟩
  rw [copyOut_reads n cap _ _ sink [] hsink, e f hf]
  rfl

/-- **C98, `decompress`, whatever the standard output does.**  The program ends.  What it has written is a beginning of the data, and
it panics unless that is all of the data. -/
theorem decompress_any_sink (hs : Par.Serves dw file data) (sched : Par.Sched) (src : List Ev) (hsrc : Clean src)
    (hb : srcBytes src = file) (cap : Nat) (hcap : 0 < cap) (sink : List Bool) :
    ∃ k, ∀ f, k ≤ f → ∀ n, k ≤ n → ∃ bs e,
      copyOut (Par.procOf (Par.threaded sched dw) f) n cap (data.length + 1) (Par.readerOf (Par.Dec.new false, 0) bufferSize src) sink [] =
        some (bs, e) ∧ bs <+: data ∧ (e = .ok → bs = data) := by
  obtain ⟨k, s, log, bs, st, e, -, -, h⟩ := Par.threaded_reader hs sched false bufferSize src hsrc hb
    (List.replicate (data.length + 1) cap) (fun c hc => by rw [List.eq_of_mem_replicate hc]; exact hcap)
  obtain ⟨rfl, rfl⟩ := h (by simp)
  exact ⟨k, fun f hf n hn => copyOut_sink _ cap _ _ sink [] _ _ _ (e f hf n hn)⟩

end

/-- **C98: `compress | decompress`.**  With the encoder of `compress_partial`: what the first program writes, given to the second
one in any pieces, comes out as the input of the first. -/
theorem filters_round_trip_partial {b : Hybrid.Brotli σ} {g : Cfg} {I : Bool → σ → List UInt8 → List Item → Prop} {m : σ → Nat}
    (hb : Hybrid.Meets b g I m) (hg : Hybrid.Greedy b I) {st : σ} (h0 : I false st [] []) (src : List Ev) (hsrc : Clean src) :
    ∃ k w log, (∀ f, k ≤ f → ∀ n, k ≤ n →
        compressMain (Hybrid.hyProc b g.o g.dw f) n src true (Hybrid.hyWriter g.window st bufferSize []) = some (w, log, .ok)) ∧
      ∀ sched src', Clean src' → srcBytes src' = sinkBytes log → ∀ cap, 0 < cap →
        ∃ k, ∀ f, k ≤ f → ∀ n, k ≤ n →
          copyOut (Par.procOf (Par.threaded sched g.dw) f) n cap ((srcBytes src).length + 1)
            (Par.readerOf (Par.Dec.new false, 0) bufferSize src') [] [] = some (srcBytes src, .ok) := by
  obtain ⟨k, w, log, e, h⟩ := compress_partial hb hg h0 src hsrc [] (by simp)
  exact ⟨k, w, log, e, fun sched src' h1 h2 cap hc => decompress_file h.2.1 sched src' h1 h2 cap hc [] (by simp)⟩

/-! ## The theorems are not vacuous -/

/-- A codec that copies. -/
def copies : Proc Unit := ⟨fun c inp cap => (c, min inp.length cap, inp.take cap, if inp.length ≤ cap then .needsInput else .needsOutput),
  fun c _ => (c, [9], .success)⟩

/-- What is seen of a run of `compress`. -/
def seen : Option (Writer Unit × List Entry × End) → Option (List UInt8 × End)
  | some (_, log, e) => some (sinkBytes log, e)
  | none => none

example : seen (compressMain copies 9 [.data [1, 2, 3], .interrupted, .data [4]] true (Writer.new () 2 true [])) =
    some ([1, 2, 3, 4, 9], .ok) := by decide +kernel
example : seen (compressMain copies 9 [.data [1, 2, 3], .fail, .data [4]] true (Writer.new () 2 true [])) =
    some ([1, 2, 3], .panic) := by decide +kernel
example : seen (compressMain copies 9 [.data [1, 2, 3]] true (Writer.new () 2 true [true, false])) = some ([1, 2], .panic) := by
  decide +kernel
example : seen (compressMain copies 9 [.data [1, 2, 3]] false (Writer.new () 2 true [])) = some ([1, 2, 3, 9], .panic) := by
  decide +kernel

/-- There are an encoder and an input for `compress_partial` and `filters_round_trip_partial`, and an encoder for
`compress_panics`. -/
example : Hybrid.Meets (Hybrid.toy false) ⟨Codec.demoOpts, demoWords, some 12⟩ (Hybrid.toyInv demoWords) (fun _ => 0) ∧
    Hybrid.Greedy (Hybrid.toy false) (Hybrid.toyInv demoWords) ∧ Hybrid.toyInv demoWords false (true, false) [] [] ∧
    Clean [.data [1, 2], .interrupted, .data [3]] :=
  ⟨Hybrid.toy_meets false (rawPm_valid rfl (by decide) (by decide) _ _), Hybrid.toy_greedy _, ⟨by simp, rfl, fun _ => rfl⟩,
    by simp [Clean]⟩
example : Hybrid.Meets (Hybrid.toy true) ⟨Codec.demoOpts, demoWords, some 12⟩ (Hybrid.toyInv demoWords) (fun _ => 0) ∧
    Hybrid.toyInv demoWords false (true, false) [] [] ∧ ((Hybrid.toy true).stream (true, false) false [1, 2] 66000).took < 2 :=
  ⟨Hybrid.toy_meets true (rawPm_valid rfl (by decide) (by decide) _ _), ⟨by simp, rfl, fun _ => rfl⟩,
    by rw [(Hybrid.toy_leaves 66000).1]; decide⟩

/-- There is a file for `decompress`. -/
example : ∃ file, Par.Serves demoWords file [1, 2, 3] := Par.demo_threaded

/-- A run of `decompress` under a scheduler, cut off, with an output that fails, and with a byte behind the file. -/
example : copyOut (Par.procOf (Par.threaded Par.demoSched File.noWords) 400) 100 5 6
      (Par.readerOf (Par.Dec.new false, 0) 7 [.data (File.oddFile.take 20), .interrupted, .data (File.oddFile.drop 20)]) [] [] =
    some ([97, 98, 99, 97, 98, 99, 97, 98, 99, 97, 98, 99, 97], .ok) := by decide +kernel
example : copyOut (Par.procOf (Par.threaded Par.demoSched File.noWords) 400) 100 5 6
      (Par.readerOf (Par.Dec.new false, 0) 7 [.data (File.oddFile.take 60)]) [] [] =
    some ([97, 98, 99, 97, 98, 99, 97, 98, 99, 97], .panic) := by decide +kernel
example : copyOut (Par.procOf (Par.threaded Par.demoSched File.noWords) 400) 100 5 6
      (Par.readerOf (Par.Dec.new false, 0) 7 [.data File.oddFile]) [true, false] [] =
    some ([97, 98, 99, 97, 98], .panic) := by decide +kernel

end Divans.Filters
