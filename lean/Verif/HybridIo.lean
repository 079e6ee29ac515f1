import Verif.HybridRun
import Verif.IoComp

/-!
# The compressor with brotli inside as a reader and as a writer
-/

namespace Divans.Hybrid
open Divans.Pipe Divans.Eng Divans.Compressor Divans.Io

variable {σ : Type}

/-! ## Model -/

/-- `encode` as a processor.  `/repo/src/reader.rs:162-164`, `/repo/src/writer.rs:122-124`.  The output is not used:
`/repo/src/brotli_ir_gen.rs:249-262`. -/
def hyStep (b : Brotli σ) (o : Codec.Opts) (dw : Nat → Nat → Nat → List UInt8) (fuel : Nat) (c : Slot (Hy σ)) (inp : List UInt8)
    (_room : Nat) : Slot (Hy σ) × Nat × List UInt8 × Res :=
  match c with
  | .live h =>
    match h.encode b o dw fuel inp with
    | some (h', n, code) => (.live h', n, [], ofCode code)
    | none => (.crashed, 0, [], .failure)
  | c => (c, 0, [], .failure)

/-- `flush` as the processor's `close`.  `/repo/src/reader.rs:165-167`, `/repo/src/writer.rs:125-127`. -/
def hyClose (b : Brotli σ) (o : Codec.Opts) (dw : Nat → Nat → Nat → List UInt8) (fuel : Nat) (c : Slot (Hy σ)) (room : Nat) :
    Slot (Hy σ) × List UInt8 × Res :=
  match c with
  | .live h =>
    match h.flush b o dw fuel room with
    | some (h', out, code) => (.live h', out, ofCode code)
    | none => (.crashed, [], .failure)
  | c => (c, [], .failure)

/-- The processor, `/repo/src/reader.rs:161-169`, `/repo/src/writer.rs:121-129`. -/
def hyProc (b : Brotli σ) (o : Codec.Opts) (dw : Nat → Nat → Nat → List UInt8) (fuel : Nat) : Proc (Slot (Hy σ)) :=
  ⟨hyStep b o dw fuel, hyClose b o dw fuel⟩

/-- `DivansBrotliHybridCompressorReader::new`, `/repo/src/reader.rs:179-224`. -/
def hyReader (window : Option Int) (st : σ) (size : Nat) (src : List Ev) : Reader (Slot (Hy σ)) :=
  Reader.new (.live (.new window st)) (List.replicate (bufSize size) 0) true src

/-- `DivansBrotliHybridCompressorWriter::new`, `/repo/src/writer.rs:142-187`. -/
def hyWriter (window : Option Int) (st : σ) (size : Nat) (sink : List Bool) : Writer (Slot (Hy σ)) :=
  Writer.new (.live (.new window st)) (bufSize size) true sink

/-! ## An encoder that always takes all its input -/

/-- Brotli's encoder takes all the input of every call (for real brotli: its output does not fill the buffer, whose first
size is 66000 bytes). -/
def Greedy (b : Brotli σ) (I : Bool → σ → List UInt8 → List Item → Prop) : Prop :=
  ∀ s bytes xs inp room, I false s bytes xs → 256 ≤ room → (b.stream s false inp room).took = inp.length

variable {b : Brotli σ} {g : Cfg} {I : Bool → σ → List UInt8 → List Item → Prop} {m : σ → Nat} {data : List UInt8}

/-- Before the end of the input: nothing has been given out. -/
def Takes (b : Brotli σ) (g : Cfg) (I : Bool → σ → List UInt8 → List Item → Prop) (data : List UInt8) (c : Slot (Hy σ))
    (rest out : List UInt8) : Prop :=
  ∃ h bytes, c = .live h ∧ bytes ++ rest = data ∧ Live b g I false bytes [] h ∧ out = []

/-- After the end of the input. -/
def Gives (b : Brotli σ) (g : Cfg) (I : Bool → σ → List UInt8 → List Item → Prop) (data : List UInt8) (c : Slot (Hy σ))
    (out : List UInt8) : Prop :=
  ∃ h, c = .live h ∧ Flushing b g I data out h

theorem takes_gives {c : Slot (Hy σ)} {out : List UInt8} (h : Takes b g I data c [] out) : Gives b g I data c out := by
  obtain ⟨h, bytes, rfl, hd, hl, rfl⟩ := h
  rw [List.append_nil] at hd
  subst hd
  exact ⟨h, rfl, .inl ⟨false, hl⟩⟩

/-- What is still to be done. -/
def slotTodo (b : Brotli σ) : Slot (Hy σ) → Nat × Nat
  | .live h => todo b h
  | _ => (0, 0)

/-- `slotTodo`, compared. -/
def closeLt : Nat × Nat → Nat × Nat → Prop := Prod.Lex (· < ·) (· < ·)

theorem closeLt_wf : WellFounded closeLt := WellFounded.prod_lex Nat.lt_wfRel.wf Nat.lt_wfRel.wf

/-- Progress: input taken, or less to be done. -/
def hyLt (b : Brotli σ) (x y : Slot (Hy σ) × List UInt8 × List UInt8) : Prop :=
  Prod.Lex (· < ·) closeLt (x.2.1.length, slotTodo b x.1) (y.2.1.length, slotTodo b y.1)

theorem hyLt_wf (b : Brotli σ) : WellFounded (hyLt b) :=
  InvImage.wf (fun x : Slot (Hy σ) × List UInt8 × List UInt8 => (x.2.1.length, slotTodo b x.1))
    (WellFounded.prod_lex Nat.lt_wfRel.wf closeLt_wf)

theorem takes_step (hb : Meets b g I m) (hg : Greedy b I) {c : Slot (Hy σ)} {inp fut out : List UInt8}
    (h : Takes b g I data c (inp ++ fut) out) (cap : Nat) :
    ∃ k c', (∀ fuel, k ≤ fuel → (hyProc b g.o g.dw fuel).process c inp cap = (c', inp.length, [], .needsInput)) ∧
      Takes b g I data c' fut out := by
  obtain ⟨h, bytes, rfl, hd, hl, rfl⟩ := h
  obtain ⟨f0, h', n, e, -, hl', -, cb, l, hc, h256, hn, -⟩ := encode_spec hb hl inp
  obtain ⟨⟨xs, hi, -⟩, -, -⟩ := hl
  have hn' := hn.trans (hg _ _ _ inp _ hi h256)
  refine ⟨f0, .live h', fun fuel hf => ?_, h', bytes ++ inp, rfl, by rw [List.append_assoc]; exact hd, ?_, rfl⟩
  · show hyStep b g.o g.dw fuel (.live h) inp cap = _
    unfold hyStep
    simp only [e fuel hf, hn']
    rfl
  · rw [hn', List.take_length] at hl'
    exact hl'

theorem gives_step (hb : Meets b g I m) {c : Slot (Hy σ)} {out : List UInt8} (h : Gives b g I data c out) {cap : Nat}
    (hcap : 0 < cap) :
    ∃ k c' o code, (∀ fuel, k ≤ fuel → (hyProc b g.o g.dw fuel).close c cap = (c', o, ofCode code)) ∧ o.length ≤ cap ∧
      Gives b g I data c' (out ++ o) ∧ (o ≠ [] → closeLt (slotTodo b c') (slotTodo b c)) ∧
      (code = .success ∧ Restores g.dw (out ++ o) data ∨ code = .needsOutput ∧ o ≠ []) := by
  obtain ⟨h, rfl, hl⟩ := h
  obtain ⟨f0, h', o, code, e, h1, h2, h3, h4⟩ := flush_spec hb hl cap
  refine ⟨f0, .live h', o, code, fun fuel hf => ?_, h1, ⟨h', rfl, h2⟩, h3, ?_⟩
  · show hyClose b g.o g.dw fuel (.live h) cap = _
    unfold hyClose
    simp only [e fuel hf]
  · rcases h4 with h4 | ⟨h4, h5⟩
    · exact .inl h4
    · refine .inr ⟨h4, fun h0 => ?_⟩
      rw [h0, List.length_nil] at h5
      omega

theorem hy_contract (hb : Meets b g I m) (hg : Greedy b I) :
    Contract (fun fuel => hyProc b g.o g.dw fuel)
      (fun c rest out => Takes b g I data c rest out ∨ rest = [] ∧ Gives b g I data c out) (fun _ => False)
      (fun _ out => Restores g.dw out data) False (hyLt b) := by
  constructor
  · intro c inp fut out cap h hne hcap
    have hp : Takes b g I data c (inp ++ fut) out := by
      rcases h with h | ⟨h, -⟩
      · exact h
      · exact absurd (List.append_eq_nil_iff.1 h).1 hne
    obtain ⟨k, c', e, h'⟩ := takes_step hb hg hp cap
    refine ⟨k, c', inp.length, [], .needsInput, e, Nat.le_refl _, Nat.zero_le _, fun _ => .inl ?_, fun _ => ?_, fun h => (by cases h),
      fun _ => ⟨rfl, fun _ h => h.elim⟩, fun h => (by cases h), fun h => (by cases h)⟩
    · rw [List.drop_length, List.nil_append, List.append_nil]
      exact h'
    · apply (Prod.lex_def ..).2
      left
      have := List.length_pos_iff.2 hne
      simp only [List.drop_length, List.nil_append, List.length_append]
      omega
  · intro c out cap h hcap
    have hp : Gives b g I data c out := by
      rcases h with h | ⟨-, h⟩
      · exact takes_gives h
      · exact h
    obtain ⟨k, c', o, code, e, h1, h2, h3, h4⟩ := gives_step hb hp hcap
    refine ⟨k, c', o, ofCode code, e, h1, fun _ => .inr ⟨rfl, h2⟩, fun h0 => ?_, fun h0 => ?_, fun h0 => ?_, fun h0 => ?_, fun _ ho => ?_⟩
    · rcases h4 with ⟨rfl, -⟩ | ⟨rfl, h4⟩
      · cases h0
      · exact h4
    · rcases h4 with ⟨rfl, -⟩ | ⟨rfl, -⟩ <;> cases h0
    · rcases h4 with ⟨rfl, -⟩ | ⟨rfl, -⟩ <;> cases h0
    · rcases h4 with ⟨rfl, h4⟩ | ⟨rfl, -⟩
      · exact h4
      · cases h0
    · apply (Prod.lex_def ..).2
      exact .inr ⟨rfl, h3 ho⟩

theorem hy_wcontract (hb : Meets b g I m) (hg : Greedy b I) :
    WContract (fun fuel => hyProc b g.o g.dw fuel) (Takes b g I data) (fun _ _ _ => True) (hyLt b) := by
  constructor
  intro c inp fut out cap h hcap
  obtain ⟨k, c', e, h'⟩ := takes_step hb hg h cap
  refine ⟨k, c', inp.length, [], .needsInput, e, ?_, by simp, fun h => (by cases h), fun _ => ⟨List.drop_length, trivial⟩⟩
  rw [List.drop_length, List.nil_append, List.append_nil]
  exact h'

theorem hy_wflush (hb : Meets b g I m) {cap : Nat} (hcap : 0 < cap) :
    ∀ (x : Nat × Nat) (w : Writer (Slot (Hy σ))) (log : List Entry) (out : List UInt8),
      slotTodo b w.cd = x → WHeld (fun c _ out => Gives b g I data c out) cap false w [] out →
      ∃ k w' log' bs, (∀ f, k ≤ f → ∀ n, k ≤ n → w.flush (hyProc b g.o g.dw f) true n log = some (w', log', .ok 0)) ∧
        Restores g.dw (out ++ bs) data ∧ sinkBytes log' = sinkBytes log ++ bs := by
  intro x
  induction x using closeLt_wf.induction with
  | _ x ih =>
  intro w log out hx hh
  obtain ⟨k, c', o, code, e, h1, h2, hlt, h3⟩ := gives_step hb hh.ok hcap
  obtain ⟨w1, m1, m2, m3, m4, m5⟩ := emit_good { w with cd := c' } o hh.sink
  obtain ⟨log1, hlog1⟩ : ∃ log1, log1 = log ++ [.closed o (ofCode code), .wrote o] := ⟨_, rfl⟩
  have hsb : sinkBytes log1 = sinkBytes log ++ o := by
    rw [hlog1, sinkBytes_append]
    simp [sinkBytes]
  have hround : ∀ f, k ≤ f → ∀ n, w.flush (hyProc b g.o g.dw f) true (n + 1) log =
      match ofCode code with
      | .failure => some (w1, log1, .codecErr)
      | .success => Writer.flush (hyProc b g.o g.dw f) true n { w1 with flushed := true } log1
      | _ => Writer.flush (hyProc b g.o g.dw f) true n w1 log1 := by
    intro f hf n
    rw [Writer.flush.eq_def]
    simp only
    rw [hh.flushed, show (hyProc b g.o g.dw f).close w.cd w.cap = (c', o, ofCode code) by rw [hh.cap]; exact e f hf]
    have m1' : Writer.emit { cd := c', cap := w.cap, flushed := false, sink := w.sink } o = (w1, .wrote o, true) := by
      rw [← hh.flushed]; exact m1
    simp only [Bool.false_eq_true, if_false, m1', ← hlog1]
    rfl
  rcases h3 with ⟨rfl, h3⟩ | ⟨rfl, h3⟩
  · refine ⟨k + 2, { w1 with flushed := true }, log1, o, fun f hf n hn => ?_, h3, hsb⟩
    obtain ⟨n, rfl⟩ : ∃ n', n = n' + 2 := ⟨n - 2, by omega⟩
    rw [hround f (by omega) (n + 1)]
    simp only [ofCode]
    rw [Writer.flush.eq_def]
    simp
  · have hh1 : WHeld (fun c _ out => Gives b g I data c out) cap false w1 [] (out ++ o) :=
      ⟨by rw [m2]; exact h2, m3.trans hh.cap, m4.trans hh.flushed, m5⟩
    obtain ⟨k2, w', log', bs, q1, q2, q3⟩ := ih (slotTodo b w1.cd) (by rw [m2, ← hx]; exact hlt h3) w1 log1 (out ++ o) rfl hh1
    refine ⟨max k k2 + 1, w', log', o ++ bs, fun f hf n hn => ?_, by rw [← List.append_assoc]; exact q2, by rw [q3, hsb, List.append_assoc]⟩
    obtain ⟨n, rfl⟩ : ∃ n', n = n' + 1 := ⟨n - 1, by omega⟩
    rw [hround f (by omega) n]
    simp only [ofCode]
    exact q1 f (by omega) n (by omega)

end Divans.Hybrid
