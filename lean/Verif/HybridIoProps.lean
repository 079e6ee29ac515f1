import Verif.HybridIo
import Verif.HybridProps
import Verif.IoFullProps

/-!
# C71: reading from and writing to the compressor with brotli inside
-/

namespace Divans.Hybrid
open Divans.Pipe Divans.Eng Divans.Compressor Divans.Io

variable {σ : Type} {b : Brotli σ} {g : Cfg} {I : Bool → σ → List UInt8 → List Item → Prop} {m : σ → Nat}

/-! ## When brotli takes all its input in every call -/

/-- **C71 for the reader**, if brotli always takes all its input.  A caller who reads from the compressor around a source, with
an input buffer of any size and nonempty buffers of any sizes, comes to the end; the bytes read are a file of the bytes of
the source. -/
theorem hybrid_reader_partial (hb : Meets b g I m) (hg : Greedy b I) {st : σ} (h0 : I false st [] []) (size : Nat)
    (src : List Ev) (hsrc : Clean src) (caps : Nat → Nat) (hpos : ∀ i, 0 < caps i) :
    ∃ N k s log file, (∀ f, k ≤ f → ∀ n, k ≤ n →
        readToEnd (hyProc b g.o g.dw f) n ((List.range N).map caps) (hyReader g.window st size src) [] = some (s, log, file, .eof)) ∧
      Restores g.dw file (srcBytes src) := by
  have hh : Held (fun c rest out => Takes b g I (srcBytes src) c rest out ∨ rest = [] ∧ Gives b g I (srcBytes src) c out)
      (fun _ => False) (hyReader g.window st size src) [] := by
    refine held_new (by rw [List.length_replicate]; exact bufSize_pos size) true hsrc ?_
    exact .inl ⟨_, [], rfl, rfl, live_new hb h0, rfl⟩
  obtain ⟨N, k, s, log, bs, stop, e, h⟩ := readToEnd_ends (hy_contract (data := srcBytes src) hb hg) (hyLt_wf b) _
    caps _ [] [] rfl hpos hh
  rcases h with ⟨rfl, h⟩ | ⟨-, h⟩
  · exact ⟨N, k, s, log, bs, e, by rw [List.nil_append] at h; exact h⟩
  · exact absurd h id

/-- **C71 for the writer**, if brotli always takes all its input.  A caller writes bytes in any pieces to the compressor around
a sink that works, then flushes.  Every `write` reports that it has taken all, the flush succeeds, and the sink has received
a file of these bytes. -/
theorem hybrid_writer_partial (hb : Meets b g I m) (hg : Greedy b I) {st : σ} (h0 : I false st [] []) (size : Nat)
    (sink : List Bool) (hsink : ∀ x ∈ sink, x = true) (bss : List (List UInt8)) :
    ∃ k w log, (∀ f, k ≤ f → ∀ n, k ≤ n →
        writes (hyProc b g.o g.dw f) n (bss.map .write ++ [.flush true]) (hyWriter g.window st size sink) [] =
          some (w, log, (bss.map fun b => .ok b.length) ++ [.ok 0])) ∧
      Restores g.dw (sinkBytes log) bss.flatten := by
  have hh : WHeld (Takes b g I bss.flatten) (bufSize size) false (hyWriter g.window st size sink) (bss.flatten ++ []) [] :=
    ⟨⟨_, [], rfl, by simp, live_new hb h0, rfl⟩, rfl, rfl, hsink⟩
  obtain ⟨k1, w1, log1, bs1, e1, h1, -, h2⟩ := writes_ok (hy_wcontract (data := bss.flatten) hb hg) (hyLt_wf b)
    (bufSize_pos size) bss _ [] [] [] hh
  rw [List.nil_append] at h1
  obtain ⟨k2, w2, log2, bs2, e2, h3, h4⟩ := hy_wflush (data := bss.flatten) hb (bufSize_pos size) _ w1 log1 bs1
    rfl ⟨takes_gives h1.ok, h1.cap, h1.flushed, h1.sink⟩
  refine ⟨max k1 k2, w2, log2, fun f hf n hn => ?_, ?_⟩
  · rw [writes_append, e1 f (by omega) n (by omega)]
    simp only [Option.bind_some, writes, wstep, e2 f (by omega) n (by omega), Option.map_some]
  · rw [h4, h2]
    exact h3

/-! ## When brotli leaves some of its input -/

theorem checkout_new : ∃ c l, Grow.checkout (Grow.new : Grow.Buf UInt8) (some 256) = some (c, l) ∧ l.length = 66000 := by
  obtain ⟨c, l, h1, h2, h3, -, h5⟩ := Grow.checkout_spec (b := (Grow.new : Grow.Buf UInt8)) (by simp [Grow.new]) (some 256)
  refine ⟨c, l, h1, ?_⟩
  have : c.data.length = 66000 := h5
  have : c.size = 0 := h2
  omega

/-- The first call of `encode` gives brotli a buffer of 66000 bytes. -/
theorem first_encode (hb : Meets b g I m) {st : σ} (h0 : I false st [] []) (inp : List UInt8) :
    ∃ k h, (∀ fuel, k ≤ fuel → Hy.encode b g.o g.dw fuel (.new g.window st) inp =
        some (h, (b.stream st false inp 66000).took, .needsInput)) ∧
      Live b g I false (inp.take (b.stream st false inp 66000).took) [] h ∧ h.br = (b.stream st false inp 66000).st := by
  obtain ⟨k, h, n, e, -, hl, -, c, l, hc, -, hn, hs⟩ := encode_spec hb (live_new hb h0) inp
  obtain ⟨c', l', hc', hlen⟩ := checkout_new
  have : Grow.checkout (Hy.new g.window st).scratch (some 256) = some (c', l') := hc'
  rw [this, Option.some.injEq, Prod.mk.injEq] at hc
  rw [← hc.2, hlen] at hn hs
  subst hn
  exact ⟨k, h, e, hl, hs⟩

/-- **C71 fails for the writer.**  If brotli, given a buffer of 66000 bytes, fills it before it has taken all of the first
write, `write` fails with `TrailingInput` (kind `UnexpectedEof`), though nothing is wrong and the compressor could go on. -/
theorem hybrid_writer_rejects (hb : Meets b g I m) {st : σ} (h0 : I false st [] []) (size : Nat) (bs : List UInt8)
    (hleft : (b.stream st false bs 66000).took < bs.length) :
    ∃ k w log, (∀ f, k ≤ f → ∀ n, k ≤ n →
        (hyWriter g.window st size []).write (hyProc b g.o g.dw f) n bs [] = some (w, log, .trailing)) := by
  obtain ⟨k, h, e, -, -⟩ := first_encode hb h0 bs
  refine ⟨k + 1, ⟨.live h, bufSize size, false, []⟩, [.fed bs (b.stream st false bs 66000).took [] .needsInput, .wrote []],
    fun f hf n hn => ?_⟩
  obtain ⟨n, rfl⟩ : ∃ n', n = n' + 1 := ⟨n - 1, by omega⟩
  have hp : (hyProc b g.o g.dw f).process (.live (.new g.window st)) bs (bufSize size) =
      (.live h, (b.stream st false bs 66000).took, [], .needsInput) := by
    show hyStep b g.o g.dw f (.live (.new g.window st)) bs (bufSize size) = _
    unfold hyStep
    simp only [e f (by omega)]
    rfl
  have hd : bs.drop (b.stream st false bs 66000).took ≠ [] := by
    intro h0
    have := congrArg List.length h0
    rw [List.length_drop, List.length_nil] at this
    omega
  rw [Writer.write, Writer.loop.eq_def]
  simp only [hyWriter, Writer.new, hp, Writer.emit, Bool.not_true]
  simp [hd]

/-- **C71 fails for the reader.**  The source gives `bs`, which fit into the input buffer with room to spare, and then ends.
Brotli, given a buffer of 66000 bytes, fills it before it has taken all of `bs`, and takes the rest when it is called again.
Then the first `read` reports the end: the compressed file is empty. -/
theorem hybrid_reader_empty (hb : Meets b g I m) {st : σ} (h0 : I false st [] []) (size : Nat) (bs : List UInt8)
    (hsize : bs.length < bufSize size) (hleft : (b.stream st false bs 66000).took < bs.length)
    (hrest : ∀ room, 256 ≤ room →
      (b.stream (b.stream st false bs 66000).st false (bs.drop (b.stream st false bs 66000).took) room).took =
        bs.length - (b.stream st false bs 66000).took) (cap : Nat) (caps : List Nat) :
    ∃ k s log, (∀ f, k ≤ f → ∀ n, k ≤ n →
      readToEnd (hyProc b g.o g.dw f) n (cap :: caps) (hyReader g.window st size [.data bs]) [] = some (s, log, [], .eof)) := by
  obtain ⟨t, ht⟩ : ∃ t, t = (b.stream st false bs 66000).took := ⟨_, rfl⟩
  obtain ⟨k1, h1, e1, hl1, hs1⟩ := first_encode hb h0 bs
  rw [← ht] at e1 hl1 hleft hrest
  obtain ⟨k2, h2, n2, e2, -, -, -, c, l, -, h256, hn2, -⟩ := encode_spec hb hl1 (bs.drop t)
  rw [hs1, hrest _ h256] at hn2
  subst hn2
  obtain ⟨buf, hbuf⟩ : ∃ buf, buf = put (List.replicate (bufSize size) 0) 0 bs := ⟨_, rfl⟩
  have hrep : (List.replicate (bufSize size) (0 : UInt8)).length = bufSize size := List.length_replicate
  have hblen : buf.length = bufSize size := by
    rw [hbuf, put_length (by rw [hrep]; omega), hrep]
  have hbtake : buf.take bs.length = bs := by
    have := put_take (buf := List.replicate (bufSize size) (0 : UInt8)) (bs := bs) (k := 0) (Nat.zero_le _)
    rw [Nat.zero_add, List.take_zero, List.nil_append, ← hbuf] at this
    exact this
  have hne : bs ≠ [] := by
    intro h
    rw [h, List.length_nil] at hleft
    omega
  obtain ⟨x, xs, rfl⟩ := List.exists_cons_of_ne_nil hne
  obtain ⟨n0, hn0⟩ : ∃ n0, n0 = (x :: xs).length := ⟨_, rfl⟩
  rw [← hn0] at hsize hleft e2 hbtake
  -- the three states
  obtain ⟨s1, hs1'⟩ : ∃ s1 : Reader (Slot (Hy σ)), s1 = ⟨.live h1, buf, t, n0, false, false, false, []⟩ := ⟨_, rfl⟩
  obtain ⟨s2, hs2'⟩ : ∃ s2 : Reader (Slot (Hy σ)), s2 = Reader.front ⟨.live h2, buf, n0, n0, true, false, false, []⟩ := ⟨_, rfl⟩
  obtain ⟨log1, hlog1⟩ : ∃ log1 : List Entry, log1 = [] ++ (some (.got (x :: xs)) : Option Entry).toList ++ [.fed (x :: xs) t [] .needsInput] := ⟨_, rfl⟩
  obtain ⟨log2, hlog2⟩ : ∃ log2 : List Entry, log2 = log1 ++ (some .ended : Option Entry).toList ++ [.fed ((x :: xs).drop t) (n0 - t) [] .needsInput] := ⟨_, rfl⟩
  have heof : s2.eof = true := by
    rw [hs2', Reader.front]
    split
    · rfl
    · split <;> rfl
  have r1 : ∀ f, k1 ≤ f → ∀ n, (hyReader g.window st size [.data (x :: xs)]).loop (hyProc b g.o g.dw f) cap (n + 1) false [] =
      s1.loop (hyProc b g.o g.dw f) cap n false log1 := by
    intro f hf n
    have hpull : (hyReader g.window st size [.data (x :: xs)]).pull =
        (⟨.live (.new g.window st), buf, 0, n0, false, false, false, []⟩, some (.got (x :: xs))) := by
      have hmin : min (bufSize size) (xs.length + 1) = n0 := by
        rw [List.length_cons] at hn0
        omega
      have htk : (x :: xs).take n0 = x :: xs := by rw [hn0, List.take_length]
      unfold Reader.pull hyReader Reader.new
      simp only [List.length_replicate, bufSize_pos, and_self, if_true, Nat.sub_zero, List.length_cons, hmin, htk, Nat.zero_add,
        Bool.not_true]
      rw [hbuf, if_neg (by rw [hn0, List.length_cons]; omega)]
    have hcall : (⟨.live (.new g.window st), buf, 0, n0, false, false, false, []⟩ : Reader (Slot (Hy σ))).call (hyProc b g.o g.dw f) cap =
        (s1, .fed (x :: xs) t [] .needsInput, [], .needsInput) := by
      have hp : (hyProc b g.o g.dw f).process (.live (.new g.window st)) (x :: xs) cap = (.live h1, t, [], .needsInput) := by
        show hyStep b g.o g.dw f (.live (.new g.window st)) (x :: xs) cap = _
        unfold hyStep
        simp only [e1 f hf]
        rfl
      unfold Reader.call Reader.avail Reader.pending
      simp only [Nat.sub_zero, List.drop_zero, hbtake, hp, Nat.zero_add]
      rw [if_neg (by omega), hs1']
    have hav : s1.avail ≠ 0 := by
      rw [hs1']
      show n0 - t ≠ 0
      omega
    rw [Reader.loop.eq_def]
    simp only [hpull, stillNeeds, hcall, ← hlog1]
    simp [hav]
  have r2 : ∀ f, k2 ≤ f → ∀ n, s1.loop (hyProc b g.o g.dw f) cap (n + 1) false log1 =
      s2.loop (hyProc b g.o g.dw f) cap n true log2 := by
    intro f hf n
    have hpull : s1.pull = (⟨.live h1, buf, t, n0, true, false, false, []⟩, some .ended) := by
      rw [hs1']
      unfold Reader.pull
      simp only [hblen, hsize, and_self, if_true]
    have hcall : (⟨.live h1, buf, t, n0, true, false, false, []⟩ : Reader (Slot (Hy σ))).call (hyProc b g.o g.dw f) cap =
        (⟨.live h2, buf, n0, n0, true, false, false, []⟩, .fed ((x :: xs).drop t) (n0 - t) [] .needsInput, [], .needsInput) := by
      have hp : (hyProc b g.o g.dw f).process (.live h1) ((x :: xs).drop t) cap = (.live h2, n0 - t, [], .needsInput) := by
        show hyStep b g.o g.dw f (.live h1) ((x :: xs).drop t) cap = _
        unfold hyStep
        simp only [e2 f hf]
        rfl
      unfold Reader.call Reader.avail Reader.pending
      simp only [hbtake, hp]
      rw [if_neg (by omega), show t + (n0 - t) = n0 by omega]
    rw [Reader.loop.eq_def]
    simp only [hpull, stillNeeds, hcall, ← hlog2]
    simp [Reader.avail, ← hs2']
  refine ⟨max k1 k2 + 3, s2, log2, fun f hf n hn => ?_⟩
  obtain ⟨n, rfl⟩ : ∃ n', n = n' + 3 := ⟨n - 3, by omega⟩
  have : (hyReader g.window st size [.data (x :: xs)]).read (hyProc b g.o g.dw f) (n + 3) cap [] = some (s2, log2, .ok []) := by
    rw [Reader.read, r1 f (by omega) (n + 2), r2 f (by omega) (n + 1), Reader.loop.eq_def]
    simp [heof]
  rw [readToEnd, this]

/-! ## The theorems are not vacuous -/

/-- `toy false` always takes all its input. -/
theorem toy_greedy (dw : Nat → Nat → Nat → List UInt8) : Greedy (toy false) (toyInv dw) := by
  intro s bytes xs inp room _ _
  simp [toy]

/-- The hypotheses of the theorems about an encoder that takes all its input are met. -/
example : Meets (toy false) ⟨Codec.demoOpts, demoWords, some 12⟩ (toyInv demoWords) (fun _ => 0) ∧ Greedy (toy false) (toyInv demoWords) ∧
    toyInv demoWords false (true, false) [] [] ∧ Clean [.data [1, 2], .interrupted, .data [3]] :=
  ⟨toy_meets false (rawPm_valid rfl (by decide) (by decide) _ _), toy_greedy _, ⟨by simp, rfl, fun _ => rfl⟩, by simp [Clean]⟩

theorem toy_leaves (room : Nat) : ((toy true).stream (true, false) false [1, 2] room).took = 1 ∧
    ((toy true).stream (true, false) false [1, 2] room).st = (false, false) := by simp [toy]

/-- `toy true` keeps the contract, leaves a byte of `[1, 2]` and takes it when it is called again. -/
example : Meets (toy true) ⟨Codec.demoOpts, demoWords, some 12⟩ (toyInv demoWords) (fun _ => 0) ∧
    toyInv demoWords false (true, false) [] [] ∧ ([1, 2] : List UInt8).length < bufSize 0 ∧
    ((toy true).stream (true, false) false [1, 2] 66000).took = 1 ∧
    (∀ room, ((toy true).stream ((toy true).stream (true, false) false [1, 2] 66000).st false [2] room).took = 1) :=
  ⟨toy_meets true (rawPm_valid rfl (by decide) (by decide) _ _), ⟨by simp, rfl, fun _ => rfl⟩, by decide, (toy_leaves 66000).1,
    fun room => by rw [(toy_leaves 66000).2]; simp [toy]⟩

end Divans.Hybrid
