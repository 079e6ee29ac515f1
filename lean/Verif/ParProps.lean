import Verif.ParRun
import Verif.CallProps

/-!
# Properties of the decompressor with a thread: C84

Under every interleaving of the two threads every call of `decode` on a file the compressor wrote returns, and for
a good reason; so a caller who follows the protocol gets the original data after finitely many calls.  The
specification below is that of `Verif.CallProps` (C55), with "some schedule" or "every schedule" where a call is
made: `Dec.Returns` is what a call may return, `Dec.Always` what it returns whatever the scheduler does.
-/

namespace Divans.Par
open Divans.Adaptive Divans.Pipe
open Divans.Call (Ret)

/-! ## Specification -/

/-- A caller with a stream of bytes: every call offers the next bytes of the stream, as many as it likes, and an
output buffer of some size.  `History dw d rest calls d' rest' out rets`: with some schedule of the threads these
calls lead from the decompressor `d` and the bytes `rest` to the decompressor `d'`, the bytes `rest'` not taken, the
bytes `out` given out, and the values `rets` returned. -/
inductive History (dw : Nat → Nat → Nat → List UInt8) :
    Dec → List UInt8 → List (Nat × Nat) → Dec → List UInt8 → List UInt8 → List Ret → Prop where
  | nil (d : Dec) (rest : List UInt8) : History dw d rest [] d rest [] []
  | cons {d : Dec} {rest : List UInt8} {offer room : Nat} {r : Reply} {cs : List (Nat × Nat)} {d' : Dec}
      {rest' out : List UInt8} {rets : List Ret} (call : d.Returns dw (rest.take offer) room r)
      (more : History dw r.dec (rest.drop r.used) cs d' rest' out rets) :
      History dw d rest ((offer, room) :: cs) d' rest' (r.out ++ out) (r.ret :: rets)

/-- Decompressing the file with a thread gives `data`, whatever follows it, in calls that offer any number of the
next bytes and output buffers of any size, with checksums or without, whatever the scheduler does:

* the calls return: there is a history of any calls;
* what was given out is a beginning of `data`; from the first success on it is all of `data`, and what is left are
  the bytes behind the file, of which none is ever taken;
* every further call comes to an end under every schedule, without failure or panic of either thread, without a
  state in which both wait, and after finitely many steps; it takes no more than it was offered, and all of it up to
  the end of the file, and writes no more than there is room;
  when it asks for input it has taken all it was offered and the file has not been offered to its end;
  when it asks for output space it has filled the buffer; when it reports success `data` has been given out
  and exactly the file has been taken;
* when every call offers something and has room for something, success is reported within as many calls as
  the file and `data` together have bytes, and one more;
* when every call offers all that is left of the file, success is reported by the time the output buffers
  together have more room than `data` needs. -/
def Serves (dw : Nat → Nat → Nat → List UInt8) (file data : List UInt8) : Prop :=
  ∀ (skip : Bool) (tail : List UInt8) (cs : List (Nat × Nat)),
    (∃ d rest out rets, History dw (.new skip) (file ++ tail) cs d rest out rets) ∧
    ∀ d rest out rets, History dw (.new skip) (file ++ tail) cs d rest out rets →
      out <+: data ∧ rest <:+ file ++ tail ∧ tail <:+ rest ∧ rets.length = cs.length ∧
      (.success ∈ rets → out = data ∧ rest = tail) ∧
      (∀ offer room, d.Always dw (rest.take offer) room fun r =>
        r.used ≤ (rest.take offer).length ∧ (r.used < (rest.take offer).length → rest.drop r.used = tail) ∧
        r.out.length ≤ room ∧ out ++ r.out <+: data ∧
        (r.ret = .needsInput → r.used = (rest.take offer).length ∧ tail.length < (rest.drop offer).length) ∧
        (r.ret = .needsOutput → r.out.length = room) ∧
        (r.ret = .success → out ++ r.out = data ∧ rest.drop r.used = tail)) ∧
      ((∀ c ∈ cs, 0 < c.1 ∧ 0 < c.2) → file.length + data.length < cs.length → .success ∈ rets) ∧
      ((∀ c ∈ cs, file.length ≤ c.1) → data.length < (cs.map Prod.snd).sum → .success ∈ rets)

/-! ## What "whatever the scheduler does" means -/

/-- Steps of the threads, in any order. -/
inductive Steps (dw : Nat → Nat → Nat → List UInt8) (skip : Bool) : Conf → Conf → Prop where
  | refl (c : Conf) : Steps dw skip c c
  | tail {c c1 c2 : Conf} : Steps dw skip c c1 → Step dw skip c1 c2 → Steps dw skip c c2

/-- The definition of `Always` unfolded: in every state the threads can reach, neither of them has failed or
panicked, one of them can go on, and the call ends only as it should; and there is no infinite sequence of steps. -/
theorem always_iff (dw : Nat → Nat → Nat → List UInt8) (skip : Bool) (P : Conf → Ret → Prop) (c : Conf) :
    Always dw skip P c ↔
      (∀ c1, Steps dw skip c c1 →
        (∃ x, c1.tick dw skip = .ok x) ∧ (∃ x, c1.p.work = .ok x) ∧
        (c1.tick dw skip ≠ .ok none ∨ c1.p.work ≠ .ok none) ∧
        ∀ c2 r, c1.tick dw skip = .ok (some (c2, some r)) → P c2 r) ∧
      ¬ ∃ f : Nat → Conf, f 0 = c ∧ ∀ n, Step dw skip (f n) (f (n + 1)) := by
  constructor
  · intro ha
    refine ⟨fun c1 hs => ?_, ?_⟩
    · have : Always dw skip P c1 := by
        induction hs with
        | refl => exact ha
        | tail _ e ih =>
          cases ih with
          | mk h1 h2 h3 h4 h5 => exact h5 _ e
      cases this with
      | mk h1 h2 h3 h4 h5 => exact ⟨h1, h2, h3, h4⟩
    · induction ha with
      | mk _ _ _ _ _ ih =>
        rintro ⟨f, rfl, hf⟩
        exact ih (f 1) (hf 0) ⟨fun n => f (n + 1), rfl, fun n => hf (n + 1)⟩
  · rintro ⟨h1, h2⟩
    by_contra hn
    have hstep : ∀ x : { x : Conf // Steps dw skip c x ∧ ¬ Always dw skip P x },
        ∃ y : { x : Conf // Steps dw skip c x ∧ ¬ Always dw skip P x }, Step dw skip x.1 y.1 := by
      rintro ⟨x, hx1, hx2⟩
      by_contra hno
      apply hx2
      obtain ⟨k1, k2, k3, k4⟩ := h1 x hx1
      refine .mk k1 k2 k3 k4 fun c' hs => ?_
      by_contra hc
      exact hno ⟨⟨c', .tail hx1 hs, hc⟩, hs⟩
    choose g hg using hstep
    refine h2 ⟨fun n => (Nat.rec ⟨c, .refl c, hn⟩ (fun _ x => g x) n : { x : Conf // Steps dw skip c x ∧ ¬ Always dw skip P x }).1,
      rfl, fun n => hg _⟩

/-! ## Proofs -/

section
variable {cm : Bool} {dw : Nat → Nat → Nat → List UInt8} {w : Nat} {F h body tr tail : List UInt8}

theorem history_exists (hg : Frame.GoodHeader h w) (hw : 8 ≤ 2 ^ w) (htl : tr.length = 8) (hbody : Frame.TidyBody body)
    (skip : Bool) (hsum : File.sumOk skip (if skip then Crc.init else Crc.crc32c (h ++ body)) tr = true) :
    ∀ (cs : List (Nat × Nat)) (d : Dec) (rest E : List UInt8), d.skip = skip →
      DInv cm dw w F h body tr tail d rest E → ∃ d' rest' out rets, History dw d rest cs d' rest' out rets := by
  intro cs
  induction cs with
  | nil => intro d rest E _ _; exact ⟨d, rest, [], [], .nil d rest⟩
  | cons c cs ih =>
    intro d rest E hs hd
    obtain ⟨offer, room⟩ := c
    rw [← List.take_append_drop offer rest] at hd
    subst hs
    have ha := decode_ok hg hw htl hbody hsum room hd
    obtain ⟨r, hr⟩ := ha.exists
    have hdid := ha.returns hr
    have hdr : (rest.take offer).drop r.used ++ rest.drop offer = rest.drop r.used := by
      rw [← List.drop_append_of_le_length hdid.used, List.take_append_drop]
    have hinv := hdid.inv
    rw [hdr] at hinv
    obtain ⟨d', rest', out, rets, e⟩ := ih r.dec (rest.drop r.used) (E ++ r.out) hdid.skip hinv
    exact ⟨d', rest', _, _, .cons hr e⟩

theorem history_ok (hg : Frame.GoodHeader h w) (hw : 8 ≤ 2 ^ w) (htl : tr.length = 8) (hbody : Frame.TidyBody body)
    (skip : Bool) (hsum : File.sumOk skip (if skip then Crc.init else Crc.crc32c (h ++ body)) tr = true)
    {cs : List (Nat × Nat)} {d d' : Dec} {rest rest' out : List UInt8} {rets : List Ret}
    (hh : History dw d rest cs d' rest' out rets) : ∀ (E : List UInt8), d.skip = skip →
      DInv cm dw w F h body tr tail d rest E →
        d'.skip = skip ∧ DInv cm dw w F h body tr tail d' rest' (E ++ out) ∧ rest' <:+ rest ∧
        rets.length = cs.length ∧ (.success ∈ rets → E ++ out = F.drop (2 ^ w) ∧ rest' = tail) ∧
        ((∀ c ∈ cs, 0 < c.1 ∧ 0 < c.2) → .success ∉ rets →
          cs.length + (rest'.length - tail.length) ≤ out.length + (rest.length - tail.length)) ∧
        ((∀ c ∈ cs, rest.length - tail.length ≤ c.1) → .success ∉ rets → (cs.map Prod.snd).sum ≤ out.length) := by
  induction hh with
  | nil d rest =>
    intro E hs hd
    exact ⟨hs, by rw [List.append_nil]; exact hd, List.suffix_rfl, rfl, by simp, by simp, by simp⟩
  | @cons d rest offer room r cs d' rest' out rets call more ih =>
    intro E hs hd
    rw [← List.take_append_drop offer rest] at hd
    subst hs
    have hdid := (decode_ok hg hw htl hbody hsum room hd).returns call
    have hdr : (rest.take offer).drop r.used ++ rest.drop offer = rest.drop r.used := by
      rw [← List.drop_append_of_le_length hdid.used, List.take_append_drop]
    have hinv := hdid.inv
    rw [hdr] at hinv
    obtain ⟨g1, g2, g3, g4, g7, g5, g6⟩ := ih (E ++ r.out) hdid.skip hinv
    have hlen := hdid.len
    have hused := hdid.used
    rw [List.length_take] at hused
    refine ⟨g1, by rw [← List.append_assoc]; exact g2, g3.trans (List.drop_suffix _ _), by simp [g4], ?_, ?_, ?_⟩
    · intro hsu
      rw [← List.append_assoc]
      rcases List.mem_cons.1 hsu with hsu | hsu
      · obtain ⟨u1, u2⟩ := hdid.done hsu.symm
        rw [hdr] at u2
        have h1 := dinv_pre g2
        have h2 := dinv_tail g2
        rw [u1] at h1 ⊢
        rw [u2] at g3
        have h3 := h1.length_le
        rw [List.length_append] at h3
        have h4 : out = [] := List.eq_nil_of_length_eq_zero (by omega)
        exact ⟨by rw [h4, List.append_nil], List.IsSuffix.eq_of_length_le g3 h2.length_le⟩
      · exact g7 hsu
    · intro hpos hns
      obtain ⟨q1, q2⟩ := hpos (offer, room) (by simp)
      simp only at q1 q2
      have hns' : .success ∉ rets := fun hx => hns (by simp [hx])
      have := g5 (fun c hc => hpos c (by simp [hc])) hns'
      rw [List.length_drop] at this
      simp only [List.length_cons, List.length_append]
      cases hret : r.ret with
      | success => exact absurd (by simp [hret]) hns
      | needsOutput =>
        have := hdid.full hret
        omega
      | needsInput =>
        obtain ⟨u1, u2⟩ := hdid.more hret
        rw [List.length_take] at u1
        rw [List.length_drop] at u2
        omega
    · intro hoff hns
      have hns' : .success ∉ rets := fun hx => hns (by simp [hx])
      have h0 := hoff (offer, room) (by simp)
      have := g6 (fun c hc => by
        have := hoff c (by simp [hc])
        rw [List.length_drop]
        omega) hns'
      simp only [List.map_cons, List.sum_cons, List.length_append]
      simp only at h0
      cases hret : r.ret with
      | success => exact absurd (by simp [hret]) hns
      | needsOutput =>
        have := hdid.full hret
        omega
      | needsInput =>
        obtain ⟨u1, u2⟩ := hdid.more hret
        rw [List.length_drop] at u2
        omega

end

/-- A well-made file is served under every schedule. -/
theorem made_serves {dw : Nat → Nat → Nat → List UInt8} {file data : List UInt8} (hm : Call.Made dw file data) :
    Serves dw file data := by
  obtain ⟨cm, wn, F, hd, body, tr, hg, hL, htl, htidy, hsum, hexp, hF⟩ := hm
  intro skip tail cs
  have hinit : DInv cm dw wn F hd body tr tail (.new skip) (file ++ tail) [] := hF skip tail
  refine ⟨history_exists hg hL htl htidy skip (hsum skip) cs _ _ _ rfl hinit, fun d rest out rets hh => ?_⟩
  obtain ⟨g1, g2, g3, g4, g7, g5, g6⟩ := history_ok hg hL htl htidy skip (hsum skip) hh _ rfl hinit
  rw [List.nil_append] at g2
  have hpre := dinv_pre g2
  rw [hexp] at hpre
  have hfl : (file ++ tail).length - tail.length = file.length := by rw [List.length_append]; omega
  rw [hfl] at g5 g6
  refine ⟨hpre, g3, dinv_tail g2, g4, by rw [← hexp]; exact g7, ?_, ?_, ?_⟩
  · intro offer room'
    have hinv := g2
    rw [← List.take_append_drop offer rest] at hinv
    subst g1
    refine (decode_ok hg hL htl htidy (hsum _) room' hinv).mono fun r hdid => ?_
    have hp := dinv_pre hdid.inv
    rw [hexp] at hp
    have hdr : (rest.take offer).drop r.used ++ rest.drop offer = rest.drop r.used := by
      rw [← List.drop_append_of_le_length hdid.used, List.take_append_drop]
    refine ⟨hdid.used, fun hlt => ?_, hdid.len, hp, hdid.more, hdid.full, fun hret => ?_⟩
    · rw [← hdr]
      refine hdid.takes fun h0 => ?_
      have := congrArg List.length h0
      rw [List.length_drop, List.length_nil] at this
      omega
    · obtain ⟨u1, u2⟩ := hdid.done hret
      rw [hexp] at u1
      exact ⟨u1, by rw [← hdr]; exact u2⟩
  · intro hpos hlong
    rcases Decidable.em (Ret.success ∈ rets) with hs | hs
    · exact hs
    · have := g5 hpos hs
      have := hpre.length_le
      omega
  · intro hoff hlong
    rcases Decidable.em (Ret.success ∈ rets) with hs | hs
    · exact hs
    · have := g6 hoff hs
      have := hpre.length_le
      omega

/-- **C84.**  Take a file as in `File.whole_file`: any list of valid commands, any output of the entropy coders of the
two streams, multiplexed in any pieces, flushed until success is reported.  Under every schedule of the two threads
every call of the decompressor with a thread on it returns, for a good reason, and a caller who follows the protocol
gets the original. -/
theorem threaded_decode_protocol (o : Codec.Opts) (dw : Nat → Nat → Nat → List UInt8) (window : Option Int)
    (room : Nat) (hroom : 0 < room) (xs : List Item)
    (hv : ∀ x ∈ xs, x.Valid o dw (2 ^ (Frame.windowOf window).toNat))
    (hi : Recode.InHistory 0 (xs.map (Item.ringCmd dw))) :
    ∃ fuel0 tc tl, (∀ fuel, fuel0 ≤ fuel →
        sendAll o dw room fuel xs (Snd.init (2 ^ (Frame.windowOf window).toNat)) = some (.ok (tc, tl))) ∧
      (∃ outC, Encodes tc outC) ∧ (∃ outL, Encodes tl outL) ∧
      ∀ outC outL, Encodes tc outC → Encodes tl outL →
      ∀ ops c file, Frame.clegal (.new (Frame.windowOf window)) ops = true →
        Frame.coded false ops = outC → Frame.coded true ops = outL →
        Frame.crun (.new (Frame.windowOf window)) ops = some (c, file) → c.stage = .done →
      Serves dw file (original dw xs) := by
  obtain ⟨fuel0, tc, tl, h1, h2, h3, h4⟩ := Call.file_made o dw window room hroom xs hv hi
  exact ⟨fuel0, tc, tl, h1, h2, h3, fun outC outL hC hL ops c file k1 k2 k3 k4 k5 =>
    made_serves (h4 outC outL hC hL ops c file k1 k2 k3 k4 k5)⟩

/-! ## The theorem is not vacuous -/

/-- The hypotheses of `threaded_decode_protocol` are met by a history with every kind of command and the smallest
window; the rest exists by `File.file_exists`. -/
example : (∀ x ∈ demoItems, x.Valid Codec.demoOpts demoWords (2 ^ (Frame.windowOf (some 3)).toNat)) ∧
    Recode.InHistory 0 (demoItems.map (Item.ringCmd demoWords)) := by
  have : 2 ^ (Frame.windowOf (some 3)).toNat = 1024 := by decide +kernel
  rw [this]
  exact ⟨demoItems_valid, by simp [demoItems, Item.ringCmd, Recode.InHistory, Recode.Cmd.size, demoWords]⟩

/-- Follow a schedule: `true` is a turn of the main thread, `false` one of the worker's; a thread that waits lets its
turn pass. -/
def Conf.play (dw : Nat → Nat → Nat → List UInt8) (skip : Bool) : List Bool → Conf → Option (Conf × Ret)
  | [], _ => none
  | true :: bs, c =>
    match c.tick dw skip with
    | .ok (some (c', some r)) => some (c', r)
    | .ok (some (c', none)) => Conf.play dw skip bs c'
    | _ => Conf.play dw skip bs c
  | false :: bs, c =>
    match c.p.work with
    | .ok (some p) => Conf.play dw skip bs { c with p := p }
    | _ => Conf.play dw skip bs c

theorem play_ends {dw : Nat → Nat → Nat → List UInt8} {skip : Bool} : ∀ (bs : List Bool) (c : Conf) {c' : Conf} {r : Ret},
    c.play dw skip bs = some (c', r) → Ends dw skip c c' r
  | [], c, c', r, h => by simp [Conf.play] at h
  | true :: bs, c, c', r, h => by
    rw [Conf.play] at h
    match ht : c.tick dw skip, h with
    | .ok (some (c1, some v)), h =>
      simp only [Option.some.injEq, Prod.mk.injEq] at h
      obtain ⟨rfl, rfl⟩ := h
      exact .last ht
    | .ok (some (c1, none)), h => exact .step (.main ht) (play_ends bs c1 h)
    | .ok none, h => exact play_ends bs c h
    | .fail, h => exact play_ends bs c h
    | .panic, h => exact play_ends bs c h
  | false :: bs, c, c', r, h => by
    rw [Conf.play] at h
    match ht : c.p.work, h with
    | .ok (some p), h => exact .step (.worker ht) (play_ends bs _ h)
    | .ok none, h => exact play_ends bs c h
    | .fail, h => exact play_ends bs c h
    | .panic, h => exact play_ends bs c h

/-- A call under a schedule. -/
def Dec.play (dw : Nat → Nat → Nat → List UInt8) (bs : List Bool) (d : Dec) (input : List UInt8) (room : Nat) :
    Option Reply :=
  match d.begin input room with
  | .ok (.inl r) => some r
  | .ok (.inr (c, before)) => (c.play dw d.skip bs).map fun x => x.1.reply d.skip c.pend before x.2
  | _ => none

theorem play_returns {dw : Nat → Nat → Nat → List UInt8} {bs : List Bool} {d : Dec} {input : List UInt8} {room : Nat}
    {r : Reply} (h : d.play dw bs input room = some r) : d.Returns dw input room r := by
  unfold Dec.play at h
  unfold Dec.Returns
  match hb : d.begin input room, h with
  | .ok (.inl r'), h => exact (Option.some.inj h).symm
  | .ok (.inr (c, before)), h =>
    obtain ⟨x, hx, rfl⟩ := Option.map_eq_some_iff.1 h
    exact ⟨x.1, x.2, play_ends _ _ hx, rfl⟩

/-- Calls, each under its schedule: the number of bytes left, the bytes given out and the values returned. -/
def plays (dw : Nat → Nat → Nat → List UInt8) :
    Dec → List UInt8 → List (Nat × Nat × List Bool) → Option (Nat × List UInt8 × List Ret)
  | _, rest, [] => some (rest.length, [], [])
  | d, rest, (offer, room, bs) :: cs =>
    match d.play dw bs (rest.take offer) room with
    | none => none
    | some r => (plays dw r.dec (rest.drop r.used) cs).map fun x => (x.1, r.out ++ x.2.1, r.ret :: x.2.2)

theorem plays_history {dw : Nat → Nat → Nat → List UInt8} : ∀ (cs : List (Nat × Nat × List Bool)) (d : Dec)
    (rest : List UInt8) {n : Nat} {out : List UInt8} {rets : List Ret}, plays dw d rest cs = some (n, out, rets) →
    ∃ d' rest', rest'.length = n ∧ History dw d rest (cs.map fun c => (c.1, c.2.1)) d' rest' out rets
  | [], d, rest, n, out, rets, h => by
    simp only [plays, Option.some.injEq, Prod.mk.injEq] at h
    obtain ⟨rfl, rfl, rfl⟩ := h
    exact ⟨d, rest, rfl, .nil d rest⟩
  | (offer, room, bs) :: cs, d, rest, n, out, rets, h => by
    rw [plays] at h
    match hp : d.play dw bs (rest.take offer) room, h with
    | some r, h =>
      obtain ⟨x, hx, he⟩ := Option.map_eq_some_iff.1 h
      obtain ⟨n', out', rets'⟩ := x
      simp only [Prod.mk.injEq] at he
      obtain ⟨rfl, rfl, rfl⟩ := he
      obtain ⟨d', rest', h1, h2⟩ := plays_history cs r.dec (rest.drop r.used) hx
      exact ⟨d', rest', h1, .cons (play_returns hp) h2⟩

/-- The calls of the example beside `Call.decode_protocol`, each under the schedule `bs`. -/
def oddCalls (bs : List Bool) : List (Nat × Nat × List Bool) :=
  [(10, 3), (7, 3), (100, 3), (1, 0), (60, 3), (60, 3), (60, 5), (9, 9)].map fun x => (x.1, x.2, bs)

/-- A file of two commands, offered in pieces together with three bytes that do not belong to it, with a slow
worker, a fast one, and one that does all it can after the first step of every call. -/
def OddSeen (bs : List Bool) : Prop :=
  plays File.noWords (.new false) (File.oddFile ++ [1, 2, 3]) (oddCalls bs) =
    some (3, [97, 98, 99, 97, 98, 99, 97, 98, 99, 97, 98, 99, 97],
      [.needsInput, .needsInput, .needsOutput, .needsOutput, .needsOutput, .needsOutput, .success, .success])

instance (bs : List Bool) : Decidable (OddSeen bs) := by unfold OddSeen; infer_instance

theorem odd_slow : OddSeen (List.replicate 60 [true, true, true, false]).flatten := by decide +kernel
theorem odd_fast : OddSeen (List.replicate 60 [false, false, false, false, false, true]).flatten := by decide +kernel
theorem odd_early : OddSeen (true :: List.replicate 400 false ++ List.replicate 100 true) := by decide +kernel

/-- So there are such histories. -/
example : ∃ d rest, History File.noWords (.new false) (File.oddFile ++ [1, 2, 3])
    [(10, 3), (7, 3), (100, 3), (1, 0), (60, 3), (60, 3), (60, 5), (9, 9)] d rest
    [97, 98, 99, 97, 98, 99, 97, 98, 99, 97, 98, 99, 97]
    [.needsInput, .needsInput, .needsOutput, .needsOutput, .needsOutput, .needsOutput, .success, .success] :=
  let ⟨d, rest, _, h⟩ := plays_history _ _ _ odd_slow
  ⟨d, rest, h⟩

end Divans.Par
