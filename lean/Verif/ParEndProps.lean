import Verif.ParEnd
import Verif.ParAnyProps
import Verif.CallOwedProps

/-!
# The decompressor with a thread on any bytes: when calls end, and when they do not: C86

`Verif.ParEnd` shows that no schedule of the two threads goes on for ever.  A call that does not end is one in which both
threads wait, or the main thread waits for a worker that has panicked.  The first happens only when the end marker of the
streams has been taken before the commands ended; files on which it does are given below.
-/

namespace Divans.Par
open Divans.Call (Ret)
open Divans.Frame (GoodHeader)

/-! ## Specification -/

/-- The bytes begin with a header and streams up to their end marker. -/
def HasEnd (bytes : List UInt8) : Prop :=
  ∃ h w body more s, bytes = h ++ body ++ more ∧ GoodHeader h w ∧ Mux.runAll .init body = some s ∧ s.eof = .done

/-- Both threads wait for each other. -/
def Deadlock (dw : Nat → Nat → Nat → List UInt8) (skip : Bool) (c : Conf) : Prop :=
  c.tick dw skip = .ok none ∧ c.p.work = .ok none

/-- The main thread waits, and the worker's thread has panicked: it sends nothing, not even an error, since only a returned
failure is broadcast, and nobody joins it (`/repo/src/parallel_decompressor.rs:104-133`). -/
def Orphaned (dw : Nat → Nat → Nat → List UInt8) (skip : Bool) (c : Conf) : Prop :=
  c.tick dw skip = .ok none ∧ c.p.work = .panic

/-- Whatever the scheduler does, the call does not return, and neither thread reports a failure. -/
def NeverReturns (dw : Nat → Nat → Nat → List UInt8) (skip : Bool) (c : Conf) : Prop :=
  ∀ c', Steps dw skip c c' →
    (∀ c'' r, c'.tick dw skip ≠ .ok (some (c'', some r))) ∧ c'.tick dw skip ≠ .fail ∧ c'.tick dw skip ≠ .panic ∧ c'.p.work ≠ .fail

/-! ## Proofs -/

section
variable {dw : Nat → Nat → Nat → List UInt8} {skip : Bool}

theorem steps_sim {c c' : Conf} (hst : Steps dw skip c c') {b : File.Body} {p fut : List UInt8} (h : Call.Sim (c.p.view 0) b)
    (hs : Side c.p) (hp : p.length ≤ 1) (hpp : p <+: c.pend ++ fut) :
    (∃ b' p' x o, Call.Tracks dw ⟨skip, .body b, p⟩ ⟨skip, .body b', p'⟩ x o ∧ Call.Sim (c'.p.view 0) b' ∧ p'.length ≤ 1 ∧
      p' <+: c'.pend ++ fut ∧ c.pend = x ++ c'.pend) ∧ Side c'.p := by
  induction hst with
  | refl => exact ⟨⟨b, p, [], [], ⟨[], rfl, by simp [File.fed]⟩, h, hp, hpp, rfl⟩, hs⟩
  | tail _ e ih =>
    obtain ⟨⟨b', p', x, o, k1, k2, k3, k4, k5⟩, k8⟩ := ih
    cases e with
    | main e =>
      obtain ⟨⟨b2, p2, x2, o2, j1, j2, j3, j4, j5, -, -⟩, j8⟩ := ptick_sim k2 k8 k3 k4 e
      exact ⟨⟨b2, p2, x ++ x2, o ++ o2, k1.trans j1, j2, j3, j4, by rw [k5, j5, List.append_assoc]⟩, j8⟩
    | worker e =>
      obtain ⟨⟨b2, g, j2⟩, j8⟩ := work_sim (dw := dw) (skip := skip) k2 k8 e
      exact ⟨⟨b2, p', x ++ [], o ++ [], k1.trans (g.tracks p'), j2, k3, k4, by rw [List.append_nil]; exact k5⟩, j8⟩

theorem begin_sim {room before : Nat} {d : Dec} {f : File.Dec} {inp fut : List UInt8} {c : Conf}
    (h : PPair d f (inp ++ fut)) (e : d.begin inp room = .ok (.inr (c, before))) :
    ∃ b p y, Call.Tracks dw f ⟨d.skip, .body b, p⟩ y [] ∧ Call.Sim (c.p.view 0) b ∧ Side c.p ∧ p.length ≤ 1 ∧ p <+: c.pend ++ fut ∧
      inp = y ++ c.pend := by
  obtain ⟨skip, stage⟩ := d
  obtain ⟨skip', fstage, p⟩ := f
  obtain ⟨rfl, hl, hpp, hst⟩ := h
  simp only at hl hpp
  unfold Dec.begin at e
  cases stage with
  | body s =>
    cases fstage with
    | header got => exact hst.elim
    | body b =>
      simp only [Codec.Res.ok.injEq, Sum.inr.injEq, Prod.mk.injEq] at e
      obtain ⟨rfl, -⟩ := e
      exact ⟨b, p, [], ⟨[], rfl, by simp [File.fed]⟩, hst.1, hst.2, hl, hpp, rfl⟩
  | header got =>
    cases fstage with
    | body b => exact hst.elim
    | header got' =>
      obtain ⟨rfl, hlt, hp⟩ := hst
      simp only at hp e
      subst hp
      unfold Frame.headerDecode at e
      simp only at e
      by_cases hin : inp.length ≥ 16 - got'.length
      · rw [if_pos hin] at e
        cases hph : Frame.parseHeader (got' ++ inp.take (16 - got'.length)) with
        | none => rw [hph] at e; cases e
        | some w =>
          rw [hph] at e
          simp only at e
          have hlen : (inp.take (16 - got'.length)).length = 16 - got'.length := by rw [List.length_take]; omega
          have ht : Call.Tracks dw ⟨skip', .header got', []⟩ ⟨skip', .body
              { mux := Mux.Mux.new
                crc := if skip' then Crc.init else Crc.update Crc.init (got' ++ inp.take (16 - got'.length))
                sum := []
                rcv := Pipe.Rcv.init (2 ^ w) }, []⟩ (inp.take (16 - got'.length)) [] := by
            refine ⟨[.more (inp.take (16 - got'.length)), .input], ?_, by rw [Call.fed_more]; simp⟩
            simp only [File.run, File.Dec.act, Codec.Res.bind, File.Dec.input, List.nil_append, Frame.headerDecode, hlen,
              ge_iff_le, Nat.le_refl, if_true, List.take_take, Nat.min_self, hph, List.append_nil]
            rw [List.drop_of_length_le (by omega)]
          by_cases hlt' : 16 - got'.length < inp.length
          · rw [if_pos hlt'] at e
            simp only [Codec.Res.ok.injEq, Sum.inr.injEq, Prod.mk.injEq] at e
            obtain ⟨rfl, -⟩ := e
            exact ⟨_, [], _, ht, (init_sim _ _).1, (init_sim _ _).2, Nat.zero_le 1, List.nil_prefix,
              (List.take_append_drop _ _).symm⟩
          · rw [if_neg hlt'] at e
            cases e
      · rw [if_neg hin] at e
        cases e

/-- The end marker has been taken only if it is there. -/
theorem done_hasEnd {bytes rest out : List UInt8} {cs : List (Nat × Nat)} {d : Dec} {rets : List Ret}
    (hh : History dw (.new skip) bytes cs d rest out rets) {offer room before : Nat} {c c' : Conf}
    (hb : d.begin (rest.take offer) room = .ok (.inr (c, before))) (hst : Steps dw skip c c') (hd : c'.p.s.b.mux.eof = .done) :
    HasEnd bytes := by
  obtain ⟨f, x, t1, hp, hx, -, -⟩ := history_sim hh (ppair_new skip bytes)
  have hsk : f.skip = skip := by
    obtain ⟨acts, g1, -⟩ := t1
    exact (File.seen_run acts (File.seen_new skip) g1).2
  have hds : d.skip = skip := by rw [← hp.1]; exact hsk
  rw [← List.take_append_drop offer rest] at hp
  obtain ⟨b, p, y, t2, h1, h2, h3, h4, h5⟩ := begin_sim (dw := dw) hp hb
  rw [hds] at t2
  obtain ⟨⟨b', p', z, o, t3, h6, -, -, h7⟩, -⟩ := steps_sim hst h1 h2 h3 h4
  obtain ⟨acts, g1, g2⟩ := (t1.trans t2).trans t3
  obtain ⟨hseen, -⟩ := File.seen_run acts (File.seen_new skip) g1
  obtain ⟨hh, w, sc, body, k1, k2, k3, -, -, -, -, -, k8⟩ := hseen
  have g3 : File.fed acts = x ++ y ++ z ++ p' := g2
  rw [List.nil_append, g3] at k8
  have hxx : x ++ y ++ z = hh ++ body ++ b'.sum := List.append_cancel_right k8
  refine ⟨hh, w, body, b'.sum ++ (c'.pend ++ rest.drop offer), sc, ?_, k1, k2, ?_⟩
  · rw [← List.append_assoc, ← hxx, hx]
    conv_lhs => rw [← List.take_append_drop offer rest, h5, h7]
    simp only [List.append_assoc]
  · rw [k3, h6.parts.1]
    exact hd

end

/-! ## The theorems -/

/-- **C86.**  Any bytes, offered in any pieces with any output buffers, under any schedule, and then a further call: it
comes to a stop, whatever the scheduler does: there is no infinite sequence of steps of the two threads. -/
theorem threaded_call_stops (dw : Nat → Nat → Nat → List UInt8) (skip : Bool) (bytes : List UInt8) (cs : List (Nat × Nat))
    (d : Dec) (rest out : List UInt8) (rets : List Ret) (hh : History dw (.new skip) bytes cs d rest out rets)
    (offer room before : Nat) (c : Conf) (hb : d.begin (rest.take offer) room = .ok (.inr (c, before))) :
    ¬ ∃ f : Nat → Conf, f 0 = c ∧ ∀ n, Step dw skip (f n) (f (n + 1)) := by
  rcases begin_any (history_live hh (new_plive skip)) (rest.take offer) room with h | ⟨r, h, -⟩ | ⟨c1, k, w, h, -, -, hd, -⟩
  · rw [hb] at h; cases h
  · rw [hb] at h; cases h
  · rw [hb] at h
    simp only [Codec.Res.ok.injEq, Sum.inr.injEq, Prod.mk.injEq] at h
    obtain ⟨rfl, rfl⟩ := h
    exact during_ends hd

/-- **C86, partial.**  Where it stops, the main thread returns, fails or panics, or waits.  If it waits, then the worker has
failed, and has told it so; or the worker has panicked; or both wait.  Both wait only when the end marker has been taken and the
worker wants more of the command stream: so never if the bytes do not contain the end marker of the streams.  Missing: the
other files; there it does not hold (`early_file_hangs`, `panic_hangs`). -/
theorem threaded_call_waits_partial (dw : Nat → Nat → Nat → List UInt8) (skip : Bool) (bytes : List UInt8) (cs : List (Nat × Nat))
    (d : Dec) (rest out : List UInt8) (rets : List Ret) (hh : History dw (.new skip) bytes cs d rest out rets)
    (offer room before : Nat) (c c' : Conf) (hb : d.begin (rest.take offer) room = .ok (.inr (c, before)))
    (hs : Steps dw skip c c') (hw : c'.tick dw skip = .ok none) (hn : ∀ q, c'.p.work ≠ .ok (some q)) :
    c'.p.work = .fail ∨ Orphaned dw skip c' ∨ (Deadlock dw skip c' ∧ Starved c' ∧ HasEnd bytes) := by
  rcases begin_any (history_live hh (new_plive skip)) (rest.take offer) room with h | ⟨r, h, -⟩ | ⟨c1, k, w, h, -, -, hd, -⟩
  · rw [hb] at h; cases h
  · rw [hb] at h; cases h
  · rw [hb] at h
    simp only [Codec.Res.ok.injEq, Sum.inr.injEq, Prod.mk.injEq] at h
    obtain ⟨rfl, rfl⟩ := h
    cases hp : c'.p.work with
    | fail => exact .inl rfl
    | panic => exact .inr (.inl ⟨hw, hp⟩)
    | ok x =>
      cases x with
      | some q => exact absurd hp (hn q)
      | none =>
        have hst := during_starved (steps_during hd hs) hw hp
        exact .inr (.inr ⟨⟨hw, hp⟩, hst, done_hasEnd hh hb hs hst.ended⟩)

/-- **C86.**  After any calls, a call that returns has taken no more than it was offered, written no more than there was
room for, and filled the output buffer if it asks for more room. -/
theorem threaded_call_bounded (dw : Nat → Nat → Nat → List UInt8) (skip : Bool) (bytes : List UInt8) (cs : List (Nat × Nat))
    (d : Dec) (rest out : List UInt8) (rets : List Ret) (hh : History dw (.new skip) bytes cs d rest out rets)
    (input : List UInt8) (room : Nat) (r : Reply) (h : d.Returns dw input room r) :
    r.used ≤ input.length ∧ r.out.length ≤ room ∧ (r.ret = .needsOutput → r.out.length = room) := by
  unfold Dec.Returns at h
  rcases begin_any (history_live hh (new_plive skip)) input room with e | ⟨r', e, -, h1, h2, h3⟩ | ⟨c, k, w, e, -, -, hd, hk, hc⟩
  · rw [e] at h; exact h.elim
  · rw [e] at h
    simp only at h
    subst h
    exact ⟨h1.le, by rw [h2]; simp, by rw [h3]; simp⟩
  · rw [e] at h
    obtain ⟨c', v, he, rfl⟩ := h
    obtain ⟨-, -, r3, -, r5⟩ := during_returns he hd
    have hl := congrArg List.length hc
    rw [List.length_drop] at hl
    refine ⟨?_, ?_, fun hv => ?_⟩
    · simp only [Conf.reply]; omega
    · simp only [Conf.reply]; omega
    · have := r5 hv
      simp only [Conf.reply]; omega

/-! ## Calls that never return -/

theorem Steps.head {dw : Nat → Nat → Nat → List UInt8} {skip : Bool} {c c' : Conf} (h : Steps dw skip c c') :
    c' = c ∨ ∃ c1, Step dw skip c c1 ∧ Steps dw skip c1 c' := by
  induction h with
  | refl => exact .inl rfl
  | tail _ e ih =>
    rcases ih with rfl | ⟨c1, h1, h2⟩
    · exact .inr ⟨_, e, .refl _⟩
    · exact .inr ⟨c1, h1, .tail h2 e⟩

theorem Steps.cons {dw : Nat → Nat → Nat → List UInt8} {skip : Bool} {c c1 c' : Conf} (e : Step dw skip c c1)
    (h : Steps dw skip c1 c') : Steps dw skip c c' := by
  induction h with
  | refl => exact .tail (.refl _) e
  | tail _ e' ih => exact .tail ih e'

/-- Follow the threads as long as only one of them can go on, until both wait (`some true`) or the main thread waits and the
worker has panicked (`some false`). -/
def stuckAt (dw : Nat → Nat → Nat → List UInt8) (skip : Bool) : Nat → Conf → Option Bool
  | 0, _ => none
  | n + 1, c =>
    match c.tick dw skip, c.p.work with
    | .ok none, .ok none => some true
    | .ok none, .panic => some false
    | .ok none, .ok (some p) => stuckAt dw skip n { c with p := p }
    | .ok (some (c1, none)), .ok none => stuckAt dw skip n c1
    | _, _ => none

theorem stuckAt_ok {dw : Nat → Nat → Nat → List UInt8} {skip : Bool} {b : Bool} : ∀ (n : Nat) (c : Conf),
    stuckAt dw skip n c = some b →
    NeverReturns dw skip c ∧ ∃ c', Steps dw skip c c' ∧ if b then Deadlock dw skip c' else Orphaned dw skip c' := by
  intro n
  induction n with
  | zero => intro c h; cases h
  | succ n ih =>
    intro c h
    rw [stuckAt] at h
    generalize ht : c.tick dw skip = x at h
    generalize hp : c.p.work = y at h
    match x, y, ht, hp, h with
    | .fail, _, _, _, h => cases h
    | .panic, _, _, _, h => cases h
    | .ok none, .fail, _, _, h => cases h
    | .ok (some (_, some _)), _, _, _, h => cases h
    | .ok (some (_, none)), .fail, _, _, h => cases h
    | .ok (some (_, none)), .panic, _, _, h => cases h
    | .ok (some (_, none)), .ok (some _), _, _, h => cases h
    | .ok none, .ok none, ht, hp, h =>
      cases h
      refine ⟨fun c' hs => ?_, c, .refl c, ht, hp⟩
      rcases hs.head with rfl | ⟨c1, e, -⟩
      · rw [ht, hp]; simp
      · cases e with
        | main e => rw [ht] at e; cases e
        | worker e => rw [hp] at e; cases e
    | .ok none, .panic, ht, hp, h =>
      cases h
      refine ⟨fun c' hs => ?_, c, .refl c, ht, hp⟩
      rcases hs.head with rfl | ⟨c1, e, -⟩
      · rw [ht, hp]; simp
      · cases e with
        | main e => rw [ht] at e; cases e
        | worker e => rw [hp] at e; cases e
    | .ok none, .ok (some p), ht, hp, h =>
      obtain ⟨k1, c2, k2, k3⟩ := ih _ h
      refine ⟨fun c' hs => ?_, c2, .cons (.worker hp) k2, k3⟩
      rcases hs.head with rfl | ⟨c1, e, hs'⟩
      · rw [ht, hp]; simp
      · cases e with
        | main e => rw [ht] at e; cases e
        | worker e =>
          rw [hp] at e
          simp only [Codec.Res.ok.injEq, Option.some.injEq] at e
          subst e
          exact k1 c' hs'
    | .ok (some (c3, none)), .ok none, ht, hp, h =>
      obtain ⟨k1, c2, k2, k3⟩ := ih _ h
      refine ⟨fun c' hs => ?_, c2, .cons (.main ht) k2, k3⟩
      rcases hs.head with rfl | ⟨c1, e, hs'⟩
      · rw [ht, hp]; simp
      · cases e with
        | main e =>
          rw [ht] at e
          simp only [Codec.Res.ok.injEq, Option.some.injEq, Prod.mk.injEq, and_true] at e
          subst e
          exact k1 c' hs'
        | worker e => rw [hp] at e; cases e

/-- A call on a new decompressor. -/
def stuckOn (dw : Nat → Nat → Nat → List UInt8) (skip : Bool) (n : Nat) (bytes : List UInt8) (room : Nat) : Option Bool :=
  match (Dec.new skip).begin bytes room with
  | .ok (.inr (c, _)) => stuckAt dw skip n c
  | _ => none

theorem stuckOn_ok {dw : Nat → Nat → Nat → List UInt8} {skip : Bool} {n room : Nat} {bytes : List UInt8} {b : Bool}
    (h : stuckOn dw skip n bytes room = some b) : ∃ c k, (Dec.new skip).begin bytes room = .ok (.inr (c, k)) ∧
      NeverReturns dw skip c ∧ ∃ c', Steps dw skip c c' ∧ if b then Deadlock dw skip c' else Orphaned dw skip c' := by
  unfold stuckOn at h
  generalize hb : (Dec.new skip).begin bytes room = x at h
  match x, hb, h with
  | .fail, _, h => cases h
  | .panic, _, h => cases h
  | .ok (.inl _), _, h => cases h
  | .ok (.inr (c, k)), hb, h =>
    obtain ⟨h1, h2⟩ := stuckAt_ok n c h
    exact ⟨c, k, rfl, h1, h2⟩

/-- A header, and then the end marker: the streams end before the commands do. -/
def earlyEnd : List UInt8 := Frame.makeHeader 22 ++ [0xff, 0xfe, 0xff]

/-- **C86: it does not hold.**  On 19 bytes, offered in one call to a new decompressor with a thread, the call never returns,
whatever the scheduler does: both threads wait.  Without threads the call returns, and asks for more. -/
theorem early_file_hangs (skip : Bool) : (∃ c k, (Dec.new skip).begin earlyEnd 4096 = .ok (.inr (c, k)) ∧
      NeverReturns File.noWords skip c ∧ ∃ c', Steps File.noWords skip c c' ∧ Deadlock File.noWords skip c') ∧
    Call.seen (Call.calls File.noWords 10 (.new skip) earlyEnd [(19, 4096)]) = some (0, [], [.needsInput]) := by
  constructor
  · have : stuckOn File.noWords skip 5 earlyEnd 4096 = some true := by
      cases skip <;> decide +kernel
    obtain ⟨c, k, h1, h2, c', h3, h4⟩ := stuckOn_ok this
    exact ⟨c, k, h1, h2, c', h3, h4⟩
  · cases skip <;> decide +kernel

/-- A header and the beginning of a command stream: a copy with a length of 33 bits (`Codec.malformed_length_panics`). -/
def longLength : List UInt8 := Frame.makeHeader 22 ++ [0, 31, 0] ++
  [25, 138, 11, 32, 128, 0, 0, 0, 24, 122, 11, 32, 128, 0, 0, 0] ++ List.replicate 16 0

/-- Does the call without threads panic? -/
def panics : Option (Codec.Res Call.Reply) → Bool
  | some .panic => true
  | _ => false

/-- **C86: it does not hold.**  On these bytes the worker panics (C41).  Without threads the caller sees the panic; with a thread
the call never returns, whatever the scheduler does. -/
theorem panic_hangs (skip : Bool) : (∃ c k, (Dec.new skip).begin longLength 4096 = .ok (.inr (c, k)) ∧
      NeverReturns File.noWords skip c ∧ ∃ c', Steps File.noWords skip c c' ∧ Orphaned File.noWords skip c') ∧
    panics ((Call.Dec.new skip).decode File.noWords 30 longLength 4096) = true := by
  constructor
  · have : stuckOn File.noWords skip 40 longLength 4096 = some false := by
      cases skip <;> decide +kernel
    obtain ⟨c, k, h1, h2, c', h3, h4⟩ := stuckOn_ok this
    exact ⟨c, k, h1, h2, c', h3, h4⟩
  · cases skip <;> decide +kernel

/-! ## The theorems are not vacuous -/

/-- The bytes of the first example contain the end marker; those of the second, and a file that is cut off, do
not. -/
example : HasEnd earlyEnd :=
  ⟨Frame.makeHeader 22, 22, [0xff, 0xfe, 0xff], [], _, by decide +kernel,
    ⟨by decide +kernel, by decide +kernel, by decide +kernel, by decide, by decide⟩, rfl, by decide +kernel⟩

/-- Is the end marker behind `k` bytes of the streams? -/
def markedAt (bytes : List UInt8) (k : Nat) : Bool :=
  match Mux.runAll .init ((bytes.drop 16).take k) with
  | none => false
  | some s => decide (s.eof = .done)

theorem marked_at {bytes : List UInt8} (h : HasEnd bytes) : ∃ k, k ≤ bytes.length ∧ markedAt bytes k = true := by
  obtain ⟨hd, w, body, more, s, h1, h2, h3, h4⟩ := h
  have hl : hd.length = 16 := h2.1
  refine ⟨body.length, by rw [h1]; simp only [List.length_append]; omega, ?_⟩
  have e1 : bytes.drop 16 = body ++ more := by rw [h1, List.append_assoc, ← hl, List.drop_left]
  unfold markedAt
  rw [e1, List.take_left, h3]
  simp only [h4, decide_true]

example : ¬ HasEnd longLength := by
  intro h
  obtain ⟨k, h1, h2⟩ := marked_at h
  have : ∀ k, k < longLength.length + 1 → markedAt longLength k = false := by decide +kernel
  rw [this k (by omega)] at h2
  cases h2

example : ¬ HasEnd (File.oddFile.take 44) := by
  intro h
  obtain ⟨k, h1, h2⟩ := marked_at h
  have : ∀ k, k < (File.oddFile.take 44).length + 1 → markedAt (File.oddFile.take 44) k = false := by decide +kernel
  rw [this k (by omega)] at h2
  cases h2

end Divans.Par
