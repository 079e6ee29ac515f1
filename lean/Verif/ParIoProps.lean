import Verif.ParServe

/-!
# Properties of the adaptors, the program and the C interface with a worker thread: C87

Reading, writing, the command line program and the C interface, with `multithread`, for every file the compressor
writes (`Par.Serves`, C84) and every scheduler.  A scheduler sees everything and chooses at each moment the thread that
goes next; `every_interleaving` says that these are all the interleavings there are.
-/

namespace Divans.Par
open Divans.Io (Slot Proc Ev Reader Writer srcBytes bufSize Held Entry readToEnd Clean writes WHeld sinkBytes Complete)
open Divans.Call (Ret)
open Divans.Cli (Whole drain_spec fill_bytes)

variable {sched : Sched} {dw : Nat → Nat → Nat → List UInt8} {skip : Bool} {file data tail : List UInt8}

/-! ## Schedulers -/

theorem go_step {main : Bool} {c c' : Conf} (h : c.go dw skip main = .ok (some (c', none))) : Step dw skip c c' := by
  have turn : ∀ m, c.turn dw skip m = .ok (some (c', none)) → Step dw skip c c' := by
    intro m h
    unfold Conf.turn at h
    cases m with
    | true => exact .main h
    | false =>
      simp only [Bool.false_eq_true, if_false] at h
      cases hw : c.p.work with
      | fail => rw [hw] at h; cases h
      | panic => rw [hw] at h; cases h
      | ok x =>
        rw [hw] at h
        cases x with
        | none => simp [Codec.Res.bind] at h
        | some p =>
          simp only [Codec.Res.bind, Option.map_some, Codec.Res.ok.injEq, Option.some.injEq, Prod.mk.injEq, and_true] at h
          rw [← h]
          exact .worker hw
  unfold Conf.go at h
  generalize ht : c.turn dw skip main = x at h
  match x, ht, h with
  | .ok none, _, h => exact turn _ h
  | .ok (some y), ht, h => exact turn main (ht.trans h)
  | .fail, _, h => cases h
  | .panic, _, h => cases h

theorem go_last {main : Bool} {c c' : Conf} {r : Ret} (h : c.go dw skip main = .ok (some (c', some r))) :
    c.tick dw skip = .ok (some (c', some r)) := by
  have turn : ∀ m, c.turn dw skip m = .ok (some (c', some r)) → c.tick dw skip = .ok (some (c', some r)) := by
    intro m h
    unfold Conf.turn at h
    cases m with
    | true => exact h
    | false =>
      simp only [Bool.false_eq_true, if_false] at h
      cases hw : c.p.work with
      | fail => rw [hw] at h; cases h
      | panic => rw [hw] at h; cases h
      | ok x =>
        rw [hw] at h
        cases x with
        | none => simp [Codec.Res.bind] at h
        | some p => simp [Codec.Res.bind] at h
  unfold Conf.go at h
  generalize ht : c.turn dw skip main = x at h
  match x, ht, h with
  | .ok none, _, h => exact turn _ h
  | .ok (some y), ht, h => exact turn main (ht.trans h)
  | .fail, _, h => cases h
  | .panic, _, h => cases h

/-- What a scheduler leads to is the end of an interleaving. -/
theorem played_ends : ∀ (n t : Nat) (c c' : Conf) (r : Ret) (t' : Nat), play sched dw skip n t c = some (.ok (c', r, t')) →
    Ends dw skip c c' r := by
  intro n
  induction n with
  | zero => intro t c c' r t' h; cases h
  | succ n ih =>
    intro t c c' r t' h
    rw [play] at h
    generalize hg : c.go dw skip (sched t c) = x at h
    match x, hg, h with
    | .fail, _, h => cases h
    | .panic, _, h => cases h
    | .ok none, _, h => cases h
    | .ok (some (c1, some r1)), hg, h =>
      simp only [Option.some.injEq, Codec.Res.ok.injEq, Prod.mk.injEq] at h
      obtain ⟨rfl, rfl, -⟩ := h
      exact .last (go_last hg)
    | .ok (some (c1, none)), hg, h => exact .step (go_step hg) (ih _ _ _ _ _ h)

/-- Where every interleaving ends well, every scheduler leads to the end. -/
theorem play_always {P : Conf → Ret → Prop} {c : Conf} (ha : Always dw skip P c) : ∀ t, ∃ k c' r t',
    (∀ n, k ≤ n → play sched dw skip n t c = some (.ok (c', r, t'))) ∧ P c' r := by
  induction ha with
  | @mk c h1 h2 h3 h4 _ ih =>
    intro t
    have hgo : ∃ x, c.go dw skip (sched t c) = .ok (some x) := by
      obtain ⟨x, hx⟩ := h1
      obtain ⟨y, hy⟩ := h2
      have ht : c.turn dw skip true = .ok x := hx
      have hf : c.turn dw skip false = .ok (y.map fun p => ({ c with p := p }, none)) := by
        unfold Conf.turn
        simp only [Bool.false_eq_true, if_false, hy, Codec.Res.bind]
      unfold Conf.go
      cases sched t c with
      | true =>
        rw [ht, Bool.not_true, hf]
        cases x with
        | some x => exact ⟨x, rfl⟩
        | none =>
          cases y with
          | some y => exact ⟨_, rfl⟩
          | none => rw [hx, hy] at h3; simp at h3
      | false =>
        rw [hf, Bool.not_false, ht]
        cases y with
        | some y => exact ⟨_, rfl⟩
        | none =>
          cases x with
          | some x => exact ⟨_, rfl⟩
          | none => rw [hx, hy] at h3; simp at h3
    obtain ⟨⟨c1, r1⟩, hg⟩ := hgo
    cases r1 with
    | some r =>
      refine ⟨1, c1, r, t + 1, fun n hn => ?_, h4 _ _ (go_last hg)⟩
      obtain ⟨n, rfl⟩ : ∃ m, n = m + 1 := ⟨n - 1, by omega⟩
      rw [play, hg]
    | none =>
      obtain ⟨k, c', r, t', e, hp⟩ := ih c1 (go_step hg) (t + 1)
      refine ⟨k + 1, c', r, t', fun n hn => ?_, hp⟩
      obtain ⟨n, rfl⟩ : ∃ m, n = m + 1 := ⟨n - 1, by omega⟩
      rw [play, hg]
      exact e n (by omega)

theorem play_congr {s1 s2 : Sched} : ∀ (n t : Nat) (c : Conf), (∀ t', t ≤ t' → s1 t' = s2 t') →
    play s1 dw skip n t c = play s2 dw skip n t c := by
  intro n
  induction n with
  | zero => intro t c _; rfl
  | succ n ih =>
    intro t c h
    rw [play, play, h t (Nat.le_refl _)]
    generalize c.go dw skip (s2 t c) = x
    match x with
    | .fail => rfl
    | .panic => rfl
    | .ok none => rfl
    | .ok (some (c1, some r1)) => rfl
    | .ok (some (c1, none)) => exact ih _ _ fun t' ht => h t' (by omega)

/-- **Every interleaving of the threads during a call is that of some scheduler.** -/
theorem every_interleaving {c c' : Conf} {r : Ret} (he : Ends dw skip c c' r) :
    ∀ t, ∃ sched n t', play sched dw skip n t c = some (.ok (c', r, t')) := by
  induction he with
  | @last c c' r e =>
    intro t
    refine ⟨fun _ _ => true, 1, t + 1, ?_⟩
    have : c.go dw skip true = .ok (some (c', some r)) := by
      unfold Conf.go
      rw [show c.turn dw skip true = .ok (some (c', some r)) from e]
    rw [play, this]
  | @step c c1 c' r e _ ih =>
    intro t
    obtain ⟨sched, n, t', h⟩ := ih (t + 1)
    have hm : ∃ m, c.go dw skip m = .ok (some (c1, none)) := by
      cases e with
      | main e =>
        refine ⟨true, ?_⟩
        unfold Conf.go
        rw [show c.turn dw skip true = .ok (some (c1, none)) from e]
      | worker e =>
        refine ⟨false, ?_⟩
        unfold Conf.go Conf.turn
        simp only [Bool.false_eq_true, if_false, e, Codec.Res.bind, Option.map_some]
    obtain ⟨m, hm⟩ := hm
    refine ⟨fun u x => if u = t then m else sched u x, n + 1, t', ?_⟩
    rw [play]
    simp only [if_true, hm]
    rw [play_congr (s2 := sched)]
    · exact h
    · intro u hu
      funext x
      rw [if_neg (by omega)]

/-! ## The decompressor with a thread serves the file -/

/-- The decompressor under a scheduler returns what a call may return. -/
theorem threaded_returns {n : Nat} {x x' : Dec × Nat} {inp o : List UInt8} {room used : Nat} {ret : Ret}
    (h : threaded sched dw n x inp room = some (.ok (x', used, o, ret))) : x.1.Returns dw inp room ⟨x'.1, used, o, ret⟩ := by
  unfold threaded at h
  unfold Dec.Returns
  cases hb : x.1.begin inp room with
  | fail => rw [hb] at h; cases h
  | panic => rw [hb] at h; cases h
  | ok y =>
    rw [hb] at h
    cases y with
    | inl r =>
      simp only [Option.some.injEq, Codec.Res.ok.injEq, Prod.mk.injEq] at h
      obtain ⟨rfl, rfl, rfl, rfl⟩ := h
      rfl
    | inr y =>
      obtain ⟨c, before⟩ := y
      simp only at h ⊢
      generalize hp : play sched dw x.1.skip n x.2 c = z at h
      match z, hp, h with
      | none, _, h => cases h
      | some .fail, _, h => cases h
      | some .panic, _, h => cases h
      | some (.ok (c', v, t')), hp, h =>
        simp only [Option.map_some, Codec.Res.bind, Option.some.injEq, Codec.Res.ok.injEq, Prod.mk.injEq] at h
        obtain ⟨rfl, rfl, rfl, rfl⟩ := h
        exact ⟨c', v, played_ends _ _ _ _ _ _ hp, rfl⟩

theorem threaded_always {d : Dec} {inp : List UInt8} {room : Nat} {P : Reply → Prop} (ha : d.Always dw inp room P) (t : Nat) :
    ∃ k d' used o ret, (∀ n, k ≤ n → threaded sched dw n (d, t) inp room = some (.ok (d', used, o, ret))) ∧
      P ⟨d'.1, used, o, ret⟩ := by
  unfold Dec.Always at ha
  unfold threaded
  cases hb : d.begin inp room with
  | fail => rw [hb] at ha; exact ha.elim
  | panic => rw [hb] at ha; exact ha.elim
  | ok y =>
    rw [hb] at ha
    cases y with
    | inl r => exact ⟨0, (r.dec, t), r.used, r.out, r.ret, fun n _ => by simp only [hb], ha⟩
    | inr y =>
      obtain ⟨c, before⟩ := y
      obtain ⟨k, c', r, t', e, hp⟩ := play_always (sched := sched) ha t
      refine ⟨k, ((c'.reply d.skip c.pend before r).dec, t'), (c'.reply d.skip c.pend before r).used,
        (c'.reply d.skip c.pend before r).out, (c'.reply d.skip c.pend before r).ret, fun n hn => ?_, hp⟩
      simp only [e n hn, Option.map_some, Codec.Res.bind]

theorem History.snoc {d d' : Dec} {rest rest' out : List UInt8} {cs : List (Nat × Nat)} {rets : List Ret} {offer room : Nat} {r : Reply}
    (h : History dw d rest cs d' rest' out rets) (hr : d'.Returns dw (rest'.take offer) room r) :
    History dw d rest (cs ++ [(offer, room)]) r.dec (rest'.drop r.used) (out ++ r.out) (rets ++ [r.ret]) := by
  induction h with
  | nil d rest =>
    have := History.cons hr (.nil _ _)
    rw [List.append_nil] at this
    exact this
  | cons call more ih =>
    rw [List.append_assoc]
    exact .cons call (ih hr)

/-- Calls have led to the decompressor, with the bytes not taken and the bytes given out. -/
def Reached (dw : Nat → Nat → Nat → List UInt8) (skip : Bool) (whole : List UInt8) (x : Dec × Nat) (rest out : List UInt8) : Prop :=
  ∃ cs rets, History dw (.new skip) whole cs x.1 rest out rets

theorem reached_new {whole : List UInt8} (t : Nat) : Reached dw skip whole (.new skip, t) whole [] := ⟨[], [], .nil _ _⟩

theorem follows (hs : Serves dw file data) : Follows (threaded sched dw) (Reached dw skip (file ++ tail)) data tail := by
  constructor
  rintro ⟨d, t⟩ rest out ⟨cs, rets, hh⟩ offer room
  obtain ⟨-, -, ht, -, -, ha, -⟩ := (hs skip tail cs).2 d rest out rets hh
  obtain ⟨k, d', used, o, ret, e, h⟩ := threaded_always (sched := sched) (ha offer room) t
  exact ⟨ht, k, d', used, o, ret, e, ⟨_, _, hh.snoc (threaded_returns (e k (Nat.le_refl _)))⟩, h⟩

theorem follows_nil (hs : Serves dw file data) : Follows (threaded sched dw) (Reached dw skip file) data [] := by
  have := follows (sched := sched) (skip := skip) (tail := []) hs
  rw [List.append_nil] at this
  exact this

/-! ## C87: reading -/

theorem reader_held (size : Nat) {src : List Ev} (hsrc : Clean src) (missing : List UInt8) (hb : srcBytes src ++ missing = file) (t : Nat) :
    Held (fun c rest out => InSlot (Reached dw skip file) c (rest ++ missing) out) (fun _ => False)
      (readerOf ((Dec.new skip, t) : Dec × Nat) size src) [] := by
  refine Io.held_new (by rw [List.length_replicate]; exact Io.bufSize_pos size) false hsrc ?_
  rw [hb]
  exact reached_new t

/-- **C87.**  As C57, with a worker thread and any scheduler: a caller reads from a decompressor around a source that
holds a file (in any pieces, with interruptions), with an input buffer of any size and nonempty buffers of any sizes.
No `read` fails or goes on for ever; the bytes read are a beginning of the data; when `read` returns 0 they are all of
it; and that happens by the time there were more reads than `data` has bytes. -/
theorem threaded_reader (hs : Serves dw file data) (sched : Sched) (skip : Bool) (size : Nat) (src : List Ev) (hsrc : Clean src)
    (hb : srcBytes src = file) (caps : List Nat) (hpos : ∀ c ∈ caps, 0 < c) :
    ∃ k s log bs st, (∀ f, k ≤ f → ∀ n, k ≤ n →
        readToEnd (procOf (threaded sched dw) f) n caps (readerOf (Dec.new skip, 0) size src) [] = some (s, log, bs, st)) ∧
      bs <+: data ∧ (st = .eof ∧ bs = data ∨ st = .more ∧ caps.length ≤ bs.length) ∧
      (data.length < caps.length → st = .eof ∧ bs = data) := by
  obtain ⟨k, s, log, bs, st, e, ⟨c, rest, h1⟩, h2⟩ := Io.readToEnd_ok (contract (follows_nil (sched := sched) (skip := skip) hs) [])
    (left_wf data) caps _ [] [] hpos (reader_held size hsrc [] (by rw [List.append_nil]; exact hb) 0)
  rw [List.nil_append] at h1 h2
  have hp : bs <+: data := slot_pre (follows_nil (sched := sched) hs) h1
  have h3 : st = .eof ∧ bs = data ∨ st = .more ∧ caps.length ≤ bs.length := by
    rcases h2 with h | h | h
    · exact Or.inl ⟨h.1, h.2.1⟩
    · exact absurd rfl h.2
    · exact Or.inr h
  refine ⟨k, s, log, bs, st, e, hp, h3, fun hlt => ?_⟩
  rcases h3 with h | h
  · exact h
  · have := hp.length_le
    omega

/-- **C87, truncated files.**  If the source ends before the file does, `read` never returns 0: the caller gets a
beginning of the data and then an error. -/
theorem threaded_reader_truncated (hs : Serves dw file data) (sched : Sched) (skip : Bool) (size : Nat) (src : List Ev)
    (hsrc : Clean src) (missing : List UInt8) (hm : missing ≠ []) (hb : srcBytes src ++ missing = file) (caps : List Nat)
    (hpos : ∀ c ∈ caps, 0 < c) :
    ∃ k s log bs st, (∀ f, k ≤ f → ∀ n, k ≤ n →
        readToEnd (procOf (threaded sched dw) f) n caps (readerOf (Dec.new skip, 0) size src) [] = some (s, log, bs, st)) ∧
      bs <+: data ∧ (st = .codecErr ∨ st = .more ∧ caps.length ≤ bs.length) ∧
      (data.length < caps.length → st = .codecErr) := by
  obtain ⟨k, s, log, bs, st, e, ⟨c, rest, h1⟩, h2⟩ := Io.readToEnd_ok (contract (follows_nil (sched := sched) (skip := skip) hs) missing)
    (left_wf data) caps _ [] [] hpos (reader_held size hsrc missing hb 0)
  rw [List.nil_append] at h1 h2
  have hp : bs <+: data := slot_pre (follows_nil (sched := sched) hs) h1
  have h3 : st = .codecErr ∨ st = .more ∧ caps.length ≤ bs.length := by
    rcases h2 with h | h | h
    · exact absurd h.2.2 hm
    · exact Or.inl h.1
    · exact Or.inr h
  refine ⟨k, s, log, bs, st, e, hp, h3, fun hlt => ?_⟩
  rcases h3 with h | h
  · exact h
  · have := hp.length_le
    omega

/-- **C87, bytes behind the file.**  As without a thread: the caller gets all of the data, and then `read` never
returns, whatever the scheduler does. -/
theorem threaded_reader_hangs (hs : Serves dw file data) (sched : Sched) (skip : Bool) (size : Nat) (src : List Ev)
    (hsrc : Clean src) (tail : List UInt8) (ht : tail ≠ []) (hb : srcBytes src = file ++ tail) (caps : List Nat)
    (hpos : ∀ c ∈ caps, 0 < c) (hlen : data.length < caps.length) :
    ∃ j k s log, j < caps.length ∧
      (∀ f, k ≤ f → ∀ n, k ≤ n →
        readToEnd (procOf (threaded sched dw) f) n (caps.take j) (readerOf (Dec.new skip, 0) size src) [] = some (s, log, data, .more)) ∧
      ∀ n, ∃ k, ∀ f, k ≤ f → readToEnd (procOf (threaded sched dw) f) n caps (readerOf (Dec.new skip, 0) size src) [] = none := by
  have hh : HeldT (Reached dw skip (file ++ tail)) (readerOf ((Dec.new skip, 0) : Dec × Nat) size src) [] := by
    refine Io.held_new (by rw [List.length_replicate]; exact Io.bufSize_pos size) false hsrc ?_
    rw [hb]
    exact reached_new 0
  rcases tail_reads (follows (sched := sched) hs) ht caps _ [] [] hpos hh with ⟨k, s, log, bs, -, h2, h3⟩ | ⟨j, k, s, log, bs, h1, h2, h3, h4⟩
  · have := h3.length_le
    rw [List.nil_append] at this
    omega
  · rw [List.nil_append] at h3
    subst h3
    exact ⟨j, k, s, log, h1, h2, h4⟩

/-! ## C87: writing -/

theorem threaded_writes (hs : Serves dw file data) (sched : Sched) (skip : Bool) (size : Nat) (sink : List Bool)
    (hsink : ∀ b ∈ sink, b = true) (bss : List (List UInt8)) (missing : List UInt8) (hb : bss.flatten ++ missing = file) :
    ∃ k w log, (∀ f, k ≤ f → ∀ n, k ≤ n →
        writes (procOf (threaded sched dw) f) n (bss.map .write ++ [.flush true]) (writerOf (Dec.new skip, 0) size sink) [] =
          some (w, log, (bss.map fun b => .ok b.length) ++ [.ok 0])) ∧
      sinkBytes log <+: data ∧ (bss ≠ [] → missing = [] → sinkBytes log = data) := by
  have hh : WHeld (fun c rest out => InSlot (Reached dw skip file) c (rest ++ missing) out) (bufSize size) true
      (writerOf ((Dec.new skip, 0) : Dec × Nat) size sink) (bss.flatten ++ []) [] :=
    ⟨by rw [List.append_nil, hb]; exact reached_new 0, rfl, rfl, hsink⟩
  obtain ⟨k1, w1, log1, bs1, e1, h1, h2, h3⟩ := Io.writes_ok (wcontract (follows_nil (sched := sched) hs) missing) (left_wf data)
    (Io.bufSize_pos size) bss _ [] [] [] hh
  rw [List.nil_append] at h1 h2
  have hlog : sinkBytes log1 = bs1 := h3
  refine ⟨k1 + 1, w1, log1, fun f hf n hn => ?_, ?_, fun hne hm => ?_⟩
  · obtain ⟨n, rfl⟩ : ∃ n', n = n' + 1 := ⟨n - 1, by omega⟩
    rw [Io.writes_append, e1 f (by omega) (n + 1) (by omega)]
    simp only [Option.bind_some, writes, Io.wstep, Writer.flush, h1.flushed, if_true, Option.map_some]
  · rw [hlog]
    exact slot_pre (follows_nil (sched := sched) hs) h1.ok
  · rw [hlog]
    exact h2 hne (by rw [hm])

/-- **C87.**  As C59, with a worker thread and any scheduler: a caller writes a file in any pieces to a decompressor
around a sink that works, and flushes.  Every `write` reports that it has taken all, the flush succeeds, and the sink has
received exactly the data. -/
theorem threaded_writer (hs : Serves dw file data) (sched : Sched) (skip : Bool) (size : Nat) (sink : List Bool)
    (hsink : ∀ b ∈ sink, b = true) (bss : List (List UInt8)) (hne : bss ≠ []) (hb : bss.flatten = file) :
    ∃ k w log, (∀ f, k ≤ f → ∀ n, k ≤ n →
        writes (procOf (threaded sched dw) f) n (bss.map .write ++ [.flush true]) (writerOf (Dec.new skip, 0) size sink) [] =
          some (w, log, (bss.map fun b => .ok b.length) ++ [.ok 0])) ∧
      sinkBytes log = data := by
  obtain ⟨k, w, log, e, -, h⟩ := threaded_writes hs sched skip size sink hsink bss [] (by rw [List.append_nil]; exact hb)
  exact ⟨k, w, log, e, h hne rfl⟩

/-- **C87, truncated files.**  As without a thread: whatever beginning of a file the caller writes, all writes and the
flush report success. -/
theorem threaded_writer_accepts_truncated (hs : Serves dw file data) (sched : Sched) (skip : Bool) (size : Nat) (sink : List Bool)
    (hsink : ∀ b ∈ sink, b = true) (bss : List (List UInt8)) (missing : List UInt8) (hb : bss.flatten ++ missing = file) :
    ∃ k w log, (∀ f, k ≤ f → ∀ n, k ≤ n →
        writes (procOf (threaded sched dw) f) n (bss.map .write ++ [.flush true]) (writerOf (Dec.new skip, 0) size sink) [] =
          some (w, log, (bss.map fun b => .ok b.length) ++ [.ok 0])) ∧
      sinkBytes log <+: data := by
  obtain ⟨k, w, log, e, h, -⟩ := threaded_writes hs sched skip size sink hsink bss missing hb
  exact ⟨k, w, log, e, h⟩

/-! ## C87: the command line program -/

/-- **C87.**  As C66, with a worker thread and any scheduler: the source gives a file, with anything behind it, in any
pieces, with any interruptions, and the sink takes it in any pieces, with any interruptions; any size of buffer, and any
bytes read beforehand.  The program ends.  Either it reports no error and the sink was given exactly the data; or it
reports an error that the source or the sink had, and the sink was given a beginning of the data. -/
theorem threaded_tool (hs : Serves dw file data) (sched : Sched) (skip : Bool) (size : Nat) (extra tail : List UInt8)
    (src : List Ev) (sink : List Cli.WEv) (hw : Whole src) (he : extra ++ srcBytes src = file ++ tail) :
    ∃ f0 written e, (∀ n rounds, f0 ≤ n → f0 ≤ rounds →
        decompress (threaded sched dw) (Dec.new skip, 0) n rounds size extra src sink = some (written, e)) ∧
      (e = .ok ∧ written = data ∨ e = .ioErr ∧ written <+: data ∧ (.fail ∈ src ∨ .fail ∈ sink)) := by
  have hb := Io.bufSize_pos size
  obtain ⟨f0, s', e, h1, h2⟩ := unpackLoop_ok (missing := []) (tail := tail) (follows (sched := sched) (skip := skip) hs) (.inl rfl)
    (cap := max (bufSize size) extra.length) (size := bufSize size) (by omega) hb _
    ⟨(.new skip, 0), extra, extra.length, [], src, sink, []⟩ [] rfl (by
      simp only [List.append_nil]; rw [he]; exact reached_new 0) rfl List.nil_prefix hw (Nat.zero_le _)
  refine ⟨f0, s'.written, e, fun n k hn hk => ?_, ?_⟩
  · rw [decompress, h1 n k hn hk]; rfl
  · rcases h2 with ⟨a, -, b⟩ | ⟨-, a, -⟩ | h2
    · exact .inl ⟨a, b⟩
    · exact absurd rfl a
    · exact .inr h2

/-- **C87.**  The same with a file that is cut off: the program's loop ends, and never without an error; the sink was given a
beginning of the data.  (What comes then, freeing the decompressor, is C88: it can hang.) -/
theorem threaded_tool_cut (hs : Serves dw file data) (sched : Sched) (skip : Bool) (size : Nat) (extra missing : List UInt8)
    (src : List Ev) (sink : List Cli.WEv) (hw : Whole src) (he : extra ++ srcBytes src ++ missing = file) (hm : missing ≠ []) :
    ∃ f0 written e, (∀ n rounds, f0 ≤ n → f0 ≤ rounds →
        decompress (threaded sched dw) (Dec.new skip, 0) n rounds size extra src sink = some (written, e)) ∧
      written <+: data ∧ (e = .noEnd ∨ e = .ioErr ∧ (.fail ∈ src ∨ .fail ∈ sink)) := by
  have hb := Io.bufSize_pos size
  obtain ⟨f0, s', e, h1, h2⟩ := unpackLoop_ok (missing := missing) (tail := []) (follows_nil (sched := sched) (skip := skip) hs) (.inr rfl)
    (cap := max (bufSize size) extra.length) (size := bufSize size) (by omega) hb _
    ⟨(.new skip, 0), extra, extra.length, [], src, sink, []⟩ [] rfl (by
      simp only; rw [he]; exact reached_new 0) rfl List.nil_prefix hw (Nat.zero_le _)
  refine ⟨f0, s'.written, e, fun n k hn hk => ?_, ?_⟩
  · rw [decompress, h1 n k hn hk]; rfl
  · rcases h2 with ⟨-, a, -⟩ | ⟨a, -, b⟩ | ⟨a, b, c⟩
    · exact absurd a hm
    · exact ⟨b, .inl a⟩
    · exact ⟨b, .inr ⟨a, c⟩⟩

/-- A decompressor that took all of `whole` except `rest`, and wrote `out`. -/
def Past (dw : Nat → Nat → Nat → List UInt8) (skip : Bool) (whole : List UInt8) (x : Dec × Nat) (rest out : List UInt8)
    (rets : List Ret) : Prop :=
  ∃ cs, History dw (.new skip) whole cs x.1 rest out rets

theorem Past.step {whole : List UInt8} {x x' : Dec × Nat} {inp fut out o : List UInt8} {rets : List Ret} {n cap used : Nat} {ret : Ret}
    (h : Past dw skip whole x (inp ++ fut) out rets) (e : threaded sched dw n x inp cap = some (.ok (x', used, o, ret))) :
    Past dw skip whole x' (inp.drop used ++ fut) (out ++ o) (rets ++ [ret]) := by
  obtain ⟨cs, h⟩ := h
  have hr := threaded_returns e
  obtain ⟨f, y, -, hp, -⟩ := history_sim h (ppair_new skip whole)
  obtain ⟨f1, z, -, -, h3, ⟨u, h4⟩, -⟩ := returns_sim (fut := fut) hp hr
  have hu : used ≤ inp.length := by
    have := congrArg List.length h4
    rw [List.length_append] at this
    simp only at h3
    omega
  have := h.snoc (offer := inp.length) (room := cap) (by rw [List.take_left]; exact hr)
  simp only at this
  rw [List.drop_append_of_le_length hu] at this
  exact ⟨_, this⟩

/-- Whatever the bytes: how the loop ends, and what has been written. -/
theorem unpackLoop_any {n cap size : Nat} {whole : List UInt8} :
    ∀ (k : Nat) (s s' : Unpack (Dec × Nat)) (e : Cli.Outcome) (rets : List Call.Ret),
      Past dw skip whole s.dec (s.left ++ srcBytes s.src) (s.written ++ s.out) rets →
      unpackLoop (threaded sched dw) n cap size k s = some (s', e) →
      ∃ d rest out rets', Past dw skip whole d rest out rets' ∧ s'.written <+: out ∧
        (e = .ok → s'.written = out ∧ rets'.getLast? = some .success ∧ rest = s'.left ++ srcBytes s'.src) := by
  intro k
  induction k with
  | zero => intro s s' e rets _ h; cases h
  | succ k ih =>
    intro s s' e rets hp h
    rw [unpackLoop] at h
    cases hd : threaded sched dw n s.dec s.left (size - s.out.length) with
    | none => rw [hd] at h; cases h
    | some x =>
      rw [hd] at h
      cases x with
      | fail => cases h; exact ⟨_, _, _, _, hp, List.prefix_append _ _, by simp⟩
      | panic => cases h; exact ⟨_, _, _, _, hp, List.prefix_append _ _, by simp⟩
      | ok r =>
        obtain ⟨d', used, o, ret⟩ := r
        have hp' := hp.step hd
        rw [List.append_assoc] at hp'
        obtain ⟨d1, -, d3⟩ := drain_spec s.sink (s.out ++ o)
        have hpre : s.written ++ (Cli.drain s.sink (s.out ++ o)).2.1 <+: s.written ++ (s.out ++ o) :=
          (List.prefix_append_right_inj _).2 d1
        cases hret : ret with
        | success =>
          simp only [hret, Option.some.injEq, Prod.mk.injEq] at h
          obtain ⟨rfl, rfl⟩ := h
          refine ⟨_, _, _, _, hp', hpre, fun h0 => ?_⟩
          rcases d3 with ⟨d3, d4⟩ | ⟨d3, d4⟩
          · refine ⟨?_, by rw [hret]; simp, rfl⟩
            simp only [Unpack.flushed, d4]
          · simp only [Unpack.flushed, d3, Bool.false_eq_true, if_false] at h0
            cases h0
        | needsOutput =>
          simp only [hret] at h
          rcases d3 with ⟨d3, d4⟩ | ⟨d3, d4⟩
          · rw [if_pos (by exact d3)] at h
            refine ih _ _ _ (rets ++ [ret]) ?_ h
            simp only [Unpack.flushed, d4, List.append_nil]
            exact hp'
          · rw [if_neg (by simp only [Unpack.flushed, d3]; simp)] at h
            cases h
            exact ⟨_, _, _, _, hp', hpre, by simp⟩
        | needsInput =>
          simp only [hret] at h
          have hw : s.written <+: s.written ++ (s.out ++ o) := List.prefix_append _ _
          cases hf : Cli.fill (cap - if s.left.drop used = [] then 0 else s.last) s.src with
          | mk src' f =>
            rw [hf] at h
            cases f with
            | bytes bs =>
              simp only at h
              refine ih _ _ _ (rets ++ [ret]) ?_ h
              simp only
              rw [List.append_assoc, ← fill_bytes _ hf]
              exact hp'
            | ended => cases h; exact ⟨_, _, _, _, hp', hw, by simp⟩
            | failed => cases h; exact ⟨_, _, _, _, hp', hw, by simp⟩


/-- **C87.**  As C66, with a worker thread and any scheduler, for any source and any sink, whatever the bytes.  However
the program ends, what the sink was given is a beginning of what calls of `decode` give for these bytes.  If it ends
without an error, then the bytes begin with a complete file, with the right checksum unless it is not to be checked;
`decode` has reported success; and the sink was given all that `decode` gave. -/
theorem threaded_tool_any (sched : Sched) (dw : Nat → Nat → Nat → List UInt8) (n rounds : Nat) (skip : Bool) (size : Nat)
    (extra : List UInt8) (src : List Ev) (sink : List Cli.WEv) (written : List UInt8) (e : Cli.Outcome)
    (h : decompress (threaded sched dw) (Dec.new skip, 0) n rounds size extra src sink = some (written, e)) :
    ∃ cs d rest out rets, History dw (.new skip) (extra ++ srcBytes src) cs d rest out rets ∧ written <+: out ∧
      (e = .ok → written = out ∧ rets.getLast? = some .success ∧
        ∃ file, extra ++ srcBytes src = file ++ rest ∧ Complete skip file) := by
  unfold decompress at h
  rw [Option.map_eq_some_iff] at h
  obtain ⟨⟨s', e'⟩, h1, h2⟩ := h
  simp only [Prod.mk.injEq] at h2
  obtain ⟨rfl, rfl⟩ := h2
  obtain ⟨⟨d, t⟩, rest, out, rets, ⟨cs, g1⟩, g2, g3⟩ := unpackLoop_any (skip := skip) (whole := extra ++ srcBytes src) rounds _ _ _ []
    (by exact ⟨[], .nil _ _⟩) h1
  refine ⟨cs, d, rest, out, rets, g1, g2, fun h0 => ?_⟩
  obtain ⟨k1, k2, -⟩ := g3 h0
  obtain ⟨h, w, body, sum, st, q1, q2, q3, q4, q5, q6⟩ := threaded_success_means_checked dw skip _ cs d _ out rets g1 k2
  refine ⟨k1, k2, h ++ body ++ (sum ++ [0x61, 0x6e, 0x73, 0x7e]), q5, h, w, body, sum, st, q1, q2, q3, q4, rfl, fun hsk => ?_⟩
  have := q6 hsk
  rw [q5] at this
  exact List.append_cancel_right this

/-- **C87.**  There and back with the two programs, the second one with a worker thread: as C67, for input of at most
three windows less two bytes. -/
theorem threaded_tools_round_trip_partial (o : Codec.Opts) (dw : Nat → Nat → Nat → List UInt8) (window : Option Int)
    (hpm : (Pipe.Item.pm Compressor.rawPm).Valid o dw (2 ^ (Frame.windowOf window).toNat)) (size size' : Nat) (force : Bool)
    (src : List Ev) (sink sink' : List Cli.WEv) (hw : Whole src) (hi : .interrupted ∉ src) (hf : .fail ∉ src) (hk : .fail ∉ sink)
    (hk' : .fail ∉ sink') (hl : (srcBytes src).length ≤ 3 * 2 ^ (Frame.windowOf window).toNat - 2)
    (hm : force = true ∨ ¬ Cli.magic <+: srcBytes src) (skip : Bool) :
    ∃ f0 file, (∀ n rounds, f0 ≤ n → f0 ≤ rounds →
        Cli.compressRaw (Cli.plain o dw) dw n rounds (.new window) size force src sink = some (file, .ok)) ∧
      ∀ sched src', Whole src' → .fail ∉ src' → srcBytes src' = file → ∃ f1, ∀ n rounds, f1 ≤ n → f1 ≤ rounds →
        decompress (threaded sched dw) (Dec.new skip, 0) n rounds size' [] src' sink' = some (srcBytes src, .ok) := by
  obtain ⟨f0, file, e, h1, h2⟩ := Cli.compress_tool_partial o dw window hpm size force src sink hw hi hl hm
  rcases h2 with ⟨rfl, h2⟩ | ⟨-, h2⟩
  · refine ⟨f0, file, h1, fun sched src' g1 g2 g3 => ?_⟩
    obtain ⟨f1, written, e, k1, k2⟩ := threaded_tool h2.2.1 sched skip size' [] [] src' sink' g1 (by rw [g3]; simp)
    rcases k2 with ⟨rfl, rfl⟩ | ⟨-, -, k2⟩
    · exact ⟨f1, k1⟩
    · exact absurd k2 (by simp [g2, hk'])
  · exact absurd h2 (by simp [hf, hk])

/-! ## C87: the C interface -/

/-- **C87.**  As C63, with a worker thread and any scheduler: the loop of the example program, around `divans_decode`, with
any buffer that is not empty, given a file with anything behind it, ends, returns success, and has collected the data. -/
theorem threaded_example (hs : Serves dw file data) (sched : Sched) (skip : Bool) (tail buf : List UInt8) (hb : buf ≠ []) :
    ∃ f0, ∀ fuel k, f0 ≤ fuel → f0 ≤ k →
      decodeLoop (threaded sched dw) fuel k buf (.live (Dec.new skip, 0)) (file ++ tail) = some (data, 0) :=
  decodeLoop_ok (follows (sched := sched) hs) _ (reached_new 0) List.nil_prefix rfl buf hb

/-! ## The theorems are not vacuous -/

/-- There is a file that is served under every schedule. -/
theorem demo_threaded : ∃ file, Serves Pipe.demoWords file [1, 2, 3] := by
  obtain ⟨N, k, s, log, file, -, h⟩ := Io.compressor_reader_partial Codec.demoOpts Pipe.demoWords (some 12)
    (Compressor.rawPm_valid rfl (by decide) (by decide) _ _) 5 [.data [1, 2], .interrupted, .data [3]] (by simp [Clean]) (by decide)
    (fun _ => 1) (fun _ => Nat.one_pos)
  exact ⟨file, h.2.1⟩

/-- A scheduler that looks at the state: a turn of the main thread at every third moment, while the worker's own buffer
is nearly empty. -/
def demoSched : Sched := fun t c => decide (t % 3 = 0 ∧ c.p.batch.length < 2)

/-- What a caller sees. -/
def view : Option (Reader (Slot (Dec × Nat)) × List Entry × List UInt8 × Io.Stop) → Option (List UInt8 × Io.Stop)
  | some (_, _, bs, st) => some (bs, st)
  | none => none

/-- A file in pieces, read under this scheduler; a file that is cut off; a file with a byte behind it. -/
example : view (readToEnd (procOf (threaded demoSched File.noWords) 400) 100 [3, 1, 5, 100, 2, 2]
      (readerOf (Dec.new false, 0) 7 [.data (File.oddFile.take 20), .interrupted, .data (File.oddFile.drop 20)]) []) =
    some ([97, 98, 99, 97, 98, 99, 97, 98, 99, 97, 98, 99, 97], .eof) := by decide +kernel

example : view (readToEnd (procOf (threaded demoSched File.noWords) 400) 100 [3, 1, 5, 100, 2, 2]
      (readerOf (Dec.new false, 0) 7 [.data (File.oddFile.take 60)]) []) =
    some ([97, 98, 99, 97, 98, 99, 97, 98, 99], .codecErr) := by decide +kernel

example : view (readToEnd (procOf (threaded demoSched File.noWords) 400) 20 [100, 2]
      (readerOf (Dec.new false, 0) 70 [.data (File.oddFile ++ [1])]) []) = none := by decide +kernel

/-- The program, with bytes behind the file, small buffers and a sink that takes its time; the loop of the example program. -/
example : decompress (threaded demoSched File.noWords) (Dec.new false, 0) 400 100 5 []
      [.data (File.oddFile.take 20), .interrupted, .data (File.oddFile.drop 20 ++ [7, 7])] [.took 3, .interrupted, .took 1000] =
    some ([97, 98, 99, 97, 98, 99, 97, 98, 99, 97, 98, 99, 97], .ok) := by decide +kernel

example : decodeLoop (threaded demoSched File.noWords) 400 100 [0, 0, 0] (.live (Dec.new false, 0)) (File.oddFile ++ [7, 7]) =
    some ([97, 98, 99, 97, 98, 99, 97, 98, 99, 97, 98, 99, 97], 0) := by decide +kernel

/-- Damaged: the program reports an error. -/
example : (decompress (threaded demoSched File.noWords) (Dec.new false, 0) 400 100 5 []
      [.data (File.oddFile.dropLast ++ [0])] []).map Prod.snd = some .codecErr := by decide +kernel

end Divans.Par
