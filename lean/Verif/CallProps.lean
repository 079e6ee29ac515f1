import Verif.CallDec
import Verif.OnceProps

/-!
# Properties of the calls of `decode`: C55

Every call of `decode` on a file the compressor wrote returns, and for a good reason; so a caller who
follows the protocol gets the original data after finitely many calls.
-/

namespace Divans.Call
open Divans.Adaptive Divans.Pipe
open Divans.Frame (makeHeader trailer)
open Divans.Crc (crc32c)

/-! ## Specification -/

/-- A caller with a stream of bytes: every call offers the next bytes of the stream, as many as it likes,
and an output buffer of some size.  Result: the decompressor, the bytes of the stream not taken, the bytes
given out, and the values returned.  `none`: some call does not return within `fuel` steps. -/
def calls (dw : Nat → Nat → Nat → List UInt8) (fuel : Nat) :
    Dec → List UInt8 → List (Nat × Nat) → Option (Codec.Res (Dec × List UInt8 × List UInt8 × List Ret))
  | d, rest, [] => some (.ok (d, rest, [], []))
  | d, rest, (offer, room) :: cs =>
    match d.decode dw fuel (rest.take offer) room with
    | none => none
    | some .fail => some .fail
    | some .panic => some .panic
    | some (.ok r) =>
      (calls dw fuel r.dec (rest.drop r.used) cs).map fun x =>
        x.bind fun y => .ok (y.1, y.2.1, r.out ++ y.2.2.1, r.ret :: y.2.2.2)

/-- Decompressing the file gives `data`, whatever follows it, in calls that offer any number of the next bytes
and output buffers of any size, with checksums or without:

* every call returns, without failure or panic, and what was given out is a beginning of `data`; from the first
  success on it is all of `data`, and what is left are the bytes behind the file, of which none is ever taken;
* every further call takes no more than it was offered, and all of it up to the end of the file, and writes no
  more than there is room;
  when it asks for input it has taken all it was offered and the file has not been offered to its end;
  when it asks for output space it has filled the buffer; when it reports success `data` has been given out
  and exactly the file has been taken;
* when every call offers something and has room for something, success is reported within as many calls as
  the file and `data` together have bytes, and one more;
* when every call offers all that is left of the file, success is reported by the time the output buffers
  together have more room than `data` needs. -/
def Serves (dw : Nat → Nat → Nat → List UInt8) (file data : List UInt8) : Prop :=
  ∀ (skip : Bool) (tail : List UInt8) (cs : List (Nat × Nat)),
    ∃ k d rest out rets,
      (∀ fuel, k ≤ fuel → calls dw fuel (.new skip) (file ++ tail) cs = some (.ok (d, rest, out, rets))) ∧
      out <+: data ∧ rest <:+ file ++ tail ∧ tail <:+ rest ∧ rets.length = cs.length ∧
      (.success ∈ rets → out = data ∧ rest = tail) ∧
      (∀ offer room, ∃ k' r,
        (∀ fuel, k' ≤ fuel → d.decode dw fuel (rest.take offer) room = some (.ok r)) ∧
        r.used ≤ (rest.take offer).length ∧ (r.used < (rest.take offer).length → rest.drop r.used = tail) ∧
        r.out.length ≤ room ∧ out ++ r.out <+: data ∧
        (r.ret = .needsInput → r.used = (rest.take offer).length ∧ tail.length < (rest.drop offer).length) ∧
        (r.ret = .needsOutput → r.out.length = room) ∧
        (r.ret = .success → out ++ r.out = data ∧ rest.drop r.used = tail)) ∧
      ((∀ c ∈ cs, 0 < c.1 ∧ 0 < c.2) → file.length + data.length < cs.length → .success ∈ rets) ∧
      ((∀ c ∈ cs, file.length ≤ c.1) → data.length < (cs.map Prod.snd).sum → .success ∈ rets)

/-! ## Proofs -/

section
variable {cm : Bool} {dw : Nat → Nat → Nat → List UInt8} {w : Nat} {F h body tr tail : List UInt8}

theorem calls_ok (hg : Frame.GoodHeader h w) (hw : 8 ≤ 2 ^ w) (htl : tr.length = 8) (hbody : Frame.TidyBody body)
    (skip : Bool) (hsum : File.sumOk skip (if skip then Crc.init else Crc.crc32c (h ++ body)) tr = true) :
    ∀ (cs : List (Nat × Nat)) (d : Dec) (rest E : List UInt8), d.skip = skip →
      DInv cm dw w F h body tr tail d rest E →
      ∃ k d' rest' out rets, (∀ fuel, k ≤ fuel → calls dw fuel d rest cs = some (.ok (d', rest', out, rets))) ∧
        d'.skip = skip ∧ DInv cm dw w F h body tr tail d' rest' (E ++ out) ∧ rest' <:+ rest ∧
        rets.length = cs.length ∧ (.success ∈ rets → E ++ out = F.drop (2 ^ w) ∧ rest' = tail) ∧
        ((∀ c ∈ cs, 0 < c.1 ∧ 0 < c.2) → .success ∉ rets →
          cs.length + (rest'.length - tail.length) ≤ out.length + (rest.length - tail.length)) ∧
        ((∀ c ∈ cs, rest.length - tail.length ≤ c.1) → .success ∉ rets → (cs.map Prod.snd).sum ≤ out.length) := by
  intro cs
  induction cs with
  | nil =>
    intro d rest E hs hd
    exact ⟨0, d, rest, [], [], fun _ _ => rfl, hs, by rw [List.append_nil]; exact hd, List.suffix_rfl, rfl, by simp, by simp, by simp⟩
  | cons c cs ih =>
    intro d rest E hs hd
    obtain ⟨offer, room⟩ := c
    rw [← List.take_append_drop offer rest] at hd
    subst hs
    obtain ⟨k1, r, e1, hdid⟩ := decode_ok hg hw htl hbody hsum room hd
    have hdr : (rest.take offer).drop r.used ++ rest.drop offer = rest.drop r.used := by
      rw [← List.drop_append_of_le_length hdid.used, List.take_append_drop]
    have hinv := hdid.inv
    rw [hdr] at hinv
    obtain ⟨k2, d', rest', out, rets, e2, g1, g2, g3, g4, g7, g5, g6⟩ := ih r.dec (rest.drop r.used) (E ++ r.out) hdid.skip hinv
    have hlen := hdid.len
    have hused := hdid.used
    rw [List.length_take] at hused
    refine ⟨max k1 k2, d', rest', r.out ++ out, r.ret :: rets, ?_, g1, by rw [← List.append_assoc]; exact g2,
      g3.trans (List.drop_suffix _ _), by simp [g4], ?_, ?_, ?_⟩
    · intro fuel hf
      simp only [calls, e1 fuel (by omega), e2 fuel (by omega), Option.map_some, Codec.Res.bind]
    · intro hsu
      rw [← List.append_assoc]
      rcases List.mem_cons.1 hsu with hsu | hsu
      · obtain ⟨u1, u2⟩ := hdid.done hsu.symm
        rw [hdr] at u2
        have h1 := dinv_pre g2
        have h2 := dinv_tail g2
        rw [u1] at h1 ⊢
        rw [u2] at g3
        have h3 := h1.length_le
        rw [List.length_append] at h3
        have h4 : out = [] := List.eq_nil_of_length_eq_zero (by omega)
        exact ⟨by rw [h4, List.append_nil], List.IsSuffix.eq_of_length_le g3 h2.length_le⟩
      · exact g7 hsu
    · intro hpos hns
      obtain ⟨q1, q2⟩ := hpos (offer, room) (by simp)
      simp only at q1 q2
      have hns' : .success ∉ rets := fun hx => hns (by simp [hx])
      have := g5 (fun c hc => hpos c (by simp [hc])) hns'
      rw [List.length_drop] at this
      simp only [List.length_cons, List.length_append]
      cases hret : r.ret with
      | success => exact absurd (by simp [hret]) hns
      | needsOutput =>
        have := hdid.full hret
        omega
      | needsInput =>
        obtain ⟨u1, u2⟩ := hdid.more hret
        rw [List.length_take] at u1
        rw [List.length_drop] at u2
        omega
    · intro hoff hns
      have hns' : .success ∉ rets := fun hx => hns (by simp [hx])
      have h0 := hoff (offer, room) (by simp)
      have := g6 (fun c hc => by
        have := hoff c (by simp [hc])
        rw [List.length_drop]
        omega) hns'
      simp only [List.map_cons, List.sum_cons, List.length_append]
      simp only at h0
      cases hret : r.ret with
      | success => exact absurd (by simp [hret]) hns
      | needsOutput =>
        have := hdid.full hret
        omega
      | needsInput =>
        obtain ⟨u1, u2⟩ := hdid.more hret
        rw [List.length_drop] at u2
        omega

end

/-- A file with a header, a body and a trailer that belong together, whose body carries two streams that decode
to `data`. -/
def Made (dw : Nat → Nat → Nat → List UInt8) (file data : List UInt8) : Prop :=
  ∃ cm w F hd body tr, Frame.GoodHeader hd w ∧ 8 ≤ 2 ^ w ∧ tr.length = 8 ∧ Frame.TidyBody body ∧
    (∀ skip, File.sumOk skip (if skip then Crc.init else Crc.crc32c (hd ++ body)) tr = true) ∧ F.drop (2 ^ w) = data ∧
    ∀ skip tail, ∃ T, File.FOk cm dw (2 ^ w) F hd body tr tail ⟨skip, .header [], []⟩ (file ++ tail) [] T

/-- The files of the compressor are like that. -/
theorem file_made (o : Codec.Opts) (dw : Nat → Nat → Nat → List UInt8) (window : Option Int)
    (room : Nat) (hroom : 0 < room) (xs : List Item)
    (hv : ∀ x ∈ xs, x.Valid o dw (2 ^ (Frame.windowOf window).toNat))
    (hi : Recode.InHistory 0 (xs.map (Item.ringCmd dw))) :
    ∃ fuel0 tc tl, (∀ fuel, fuel0 ≤ fuel →
        sendAll o dw room fuel xs (Snd.init (2 ^ (Frame.windowOf window).toNat)) = some (.ok (tc, tl))) ∧
      (∃ outC, Encodes tc outC) ∧ (∃ outL, Encodes tl outL) ∧
      ∀ outC outL, Encodes tc outC → Encodes tl outL →
      ∀ ops c file, Frame.clegal (.new (Frame.windowOf window)) ops = true →
        Frame.coded false ops = outC → Frame.coded true ops = outL →
        Frame.crun (.new (Frame.windowOf window)) ops = some (c, file) → c.stage = .done →
      Made dw file (original dw xs) := by
  obtain ⟨wn, hwn⟩ : ∃ wn, wn = (Frame.windowOf window).toNat := ⟨_, rfl⟩
  rw [← hwn] at hv ⊢
  have hg := Frame.own_header_good window
  rw [← hwn] at hg
  have hL : 8 ≤ 2 ^ wn := by
    have h10 : 10 ≤ wn := hg.2.2.2.1
    calc 8 ≤ 2 ^ 10 := by decide
      _ ≤ 2 ^ wn := Nat.pow_le_pow_right (by decide) h10
  obtain ⟨fuel0, tc, tl, h1, h2, h3, h4, h5⟩ := send_spec hL hroom xs hv (snd_init_ok hL)
  have hexp : (Recode.expand (List.replicate (2 ^ wn) 0) (xs.map (Item.ringCmd dw))).drop (2 ^ wn) = original dw xs := by
    have := Recode.ring_spec (List.replicate (2 ^ wn) 0) _ hi
    rw [List.length_replicate] at this
    exact this
  have htc := h4.traceOk h2
  refine ⟨fuel0, tc, tl, h1, ?_, ?_, ?_⟩
  · obtain ⟨ops, out, e, k1, k2, k3, k4⟩ := trace_encode_total tc htc
    exact ⟨out, ops, e, k1, k2, k3, k4⟩
  · obtain ⟨ops, out, e, k1, k2, k3, k4⟩ := trace_encode_total tl h3
    exact ⟨out, ops, e, k1, k2, k3, k4⟩
  intro outC outL ⟨opsC, eC, c1, c2, c3, c4⟩ ⟨opsL, eL, l1, l2, l3, l4⟩ ops c file hleg hcC hcL hrun hdone
  have hstart := rcv_init_ok hL (feeds_start tc htc opsC c1 c2 outC eC c3 c4 []) h4
    (feeds_start tl h3 opsL l1 l2 outL eL l3 l4 []) h5
  rw [List.append_nil, List.append_nil] at hstart
  obtain ⟨c', out', e', hbody⟩ := Frame.container_tidy (Frame.windowOf window) ops hleg
  rw [hrun] at e'
  cases e'
  obtain ⟨body, ⟨s, b1, b2, b3, b4⟩, htidy, hfile⟩ := hbody hdone
  rw [Frame.fileOf_eq] at hfile
  obtain ⟨hd, hhd⟩ : ∃ hd, hd = makeHeader (Frame.windowOf window) := ⟨_, rfl⟩
  rw [← hhd] at hfile hg
  rw [hcC] at b3
  rw [hcL] at b4
  rw [← b3, ← b4] at hstart
  obtain ⟨gs, hgs⟩ : ∃ gs, gs = Codec.resultAll o (Snd.init (2 ^ wn)).core (xs.map Item.head) := ⟨_, rfl⟩
  rw [← hgs] at hstart
  refine ⟨true, wn, Recode.expand (List.replicate (2 ^ wn) 0) (xs.map (Item.ringCmd dw)), hd, body,
    trailer (crc32c (hd ++ body)), hg, hL, rfl, htidy, fun skip => File.sumOk_trailer _ _, hexp, fun skip tail =>
    ⟨_, hd, s, tc, gs, tl, rfl, ?_, ?_, rfl, b1, b2, hstart, rfl⟩⟩
  · rw [hhd]; simp [makeHeader, Frame.magic]
  · rw [hfile]; simp

/-- Such a file is served. -/
theorem made_serves {dw : Nat → Nat → Nat → List UInt8} {file data : List UInt8} (hm : Made dw file data) : Serves dw file data := by
  obtain ⟨cm, wn, F, hd, body, tr, hg, hL, htl, htidy, hsum, hexp, hF⟩ := hm
  intro skip tail cs
  have hinit : DInv cm dw wn F hd body tr tail (.new skip) (file ++ tail) [] := hF skip tail
  obtain ⟨k, d, rest, out, rets, g0, g1, g2, g3, g4, g7, g5, g6⟩ :=
    calls_ok hg hL htl htidy skip (hsum skip) cs _ _ _ rfl hinit
  rw [List.nil_append] at g2
  have hpre := dinv_pre g2
  rw [hexp] at hpre
  have hfl : (file ++ tail).length - tail.length = file.length := by rw [List.length_append]; omega
  rw [hfl] at g5 g6
  refine ⟨k, d, rest, out, rets, g0, hpre, g3, dinv_tail g2, g4, by rw [← hexp]; exact g7, ?_, ?_, ?_⟩
  · intro offer room'
    have hinv := g2
    rw [← List.take_append_drop offer rest] at hinv
    subst g1
    obtain ⟨k', r, e1, hdid⟩ := decode_ok hg hL htl htidy (hsum _) room' hinv
    have hp := dinv_pre hdid.inv
    rw [hexp] at hp
    have hdr : (rest.take offer).drop r.used ++ rest.drop offer = rest.drop r.used := by
      rw [← List.drop_append_of_le_length hdid.used, List.take_append_drop]
    refine ⟨k', r, e1, hdid.used, fun hlt => ?_, hdid.len, hp, hdid.more, hdid.full, fun hret => ?_⟩
    · rw [← hdr]
      refine hdid.takes fun h0 => ?_
      have := congrArg List.length h0
      rw [List.length_drop, List.length_nil] at this
      omega
    · obtain ⟨u1, u2⟩ := hdid.done hret
      rw [hexp] at u1
      exact ⟨u1, by rw [← hdr]; exact u2⟩
  · intro hpos hlong
    rcases Decidable.em (Ret.success ∈ rets) with hs | hs
    · exact hs
    · have := g5 hpos hs
      have := hpre.length_le
      omega
  · intro hoff hlong
    rcases Decidable.em (Ret.success ∈ rets) with hs | hs
    · exact hs
    · have := g6 hoff hs
      have := hpre.length_le
      omega

/-- **C55.**  Take a file as in `File.whole_file`: any list of valid commands, any output of the entropy
coders of the two streams, multiplexed in any pieces, flushed until success is reported.  Every call of the
decompressor on it returns, for a good reason, and a caller who follows the protocol gets the original. -/
theorem decode_protocol (o : Codec.Opts) (dw : Nat → Nat → Nat → List UInt8) (window : Option Int)
    (room : Nat) (hroom : 0 < room) (xs : List Item)
    (hv : ∀ x ∈ xs, x.Valid o dw (2 ^ (Frame.windowOf window).toNat))
    (hi : Recode.InHistory 0 (xs.map (Item.ringCmd dw))) :
    ∃ fuel0 tc tl, (∀ fuel, fuel0 ≤ fuel →
        sendAll o dw room fuel xs (Snd.init (2 ^ (Frame.windowOf window).toNat)) = some (.ok (tc, tl))) ∧
      (∃ outC, Encodes tc outC) ∧ (∃ outL, Encodes tl outL) ∧
      ∀ outC outL, Encodes tc outC → Encodes tl outL →
      ∀ ops c file, Frame.clegal (.new (Frame.windowOf window)) ops = true →
        Frame.coded false ops = outC → Frame.coded true ops = outL →
        Frame.crun (.new (Frame.windowOf window)) ops = some (c, file) → c.stage = .done →
      Serves dw file (original dw xs) := by
  obtain ⟨fuel0, tc, tl, h1, h2, h3, h4⟩ := file_made o dw window room hroom xs hv hi
  exact ⟨fuel0, tc, tl, h1, h2, h3, fun outC outL hC hL ops c file k1 k2 k3 k4 k5 =>
    made_serves (h4 outC outL hC hL ops c file k1 k2 k3 k4 k5)⟩

/-! ## The restriction to files of the compressor -/

/-- Success at the end, with all bytes taken, and so many bytes of output. -/
def gives (n : Nat) : Option (Codec.Res (Dec × List UInt8 × List UInt8 × List Ret)) → Bool
  | some (.ok (_, rest, out, rets)) => decide (rets.getLast? = some .success ∧ rest = [] ∧ out.length = n)
  | _ => false

theorem gives_spec {n : Nat} {x : Option (Codec.Res (Dec × List UInt8 × List UInt8 × List Ret))} (h : gives n x = true) :
    ∃ d out rets, x = some (.ok (d, [], out, rets)) ∧ rets.getLast? = some .success ∧ out.length = n := by
  match x, h with
  | some (.ok (d, rest, out, rets)), h =>
    obtain ⟨h1, h2, h3⟩ := of_decide_eq_true h
    subst h2
    exact ⟨d, out, rets, rfl, h1, h3⟩

/-- Some call panics. -/
def breaks : Option (Codec.Res (Dec × List UInt8 × List UInt8 × List Ret)) → Bool
  | some .panic => true
  | _ => false

theorem breaks_spec {x : Option (Codec.Res (Dec × List UInt8 × List UInt8 × List Ret))} (h : breaks x = true) :
    x = some .panic := by
  cases x with
  | none => cases h
  | some y =>
    cases y with
    | panic => rfl
    | fail => cases h
    | ok z => cases h

/-- Calls that offer the whole file. -/
def farCalls (rooms : List Nat) : List (Nat × Nat) := rooms.map fun r => (73, r)

theorem far_calls_small : gives 1107 (calls File.noWords 60 (.new false) File.farFile
    (farCalls [78, 1, 1, 1, 1, 2, 2, 2, 5000])) = true := by decide +kernel

theorem far_calls_large : breaks (calls File.noWords 60 (.new false) File.farFile (farCalls [5000])) = true := by
  decide +kernel

/-- **C54 is false without the restriction, call by call.**  A file of 73 bytes with a correct checksum is
decompressed when all of it is offered with output buffers of 78, 1, 1, 1, 1, 2, 2, 2 and 5000 bytes, and makes the
decompressor panic when it is offered with one output buffer of 5000 bytes. -/
theorem success_depends_on_rooms : ∃ (dw : Nat → Nat → Nat → List UInt8) (file : List UInt8) (fuel : Nat)
    (cs cs' : List (Nat × Nat)), (∀ c ∈ cs ++ cs', file.length ≤ c.1 ∧ 0 < c.2) ∧
    (∃ d out rets, calls dw fuel (.new false) file cs = some (.ok (d, [], out, rets)) ∧ rets.getLast? = some .success ∧
      out.length = 1107) ∧
    calls dw fuel (.new false) file cs' = some .panic := by
  refine ⟨File.noWords, File.farFile, 60, farCalls [78, 1, 1, 1, 1, 2, 2, 2, 5000], farCalls [5000], ?_, ?_, ?_⟩
  · decide +kernel
  · exact gives_spec far_calls_small
  · exact breaks_spec far_calls_large

/-! ## The theorems are not vacuous -/

/-- The hypotheses of `decode_protocol` are met by a history with every kind of command and the smallest
window; the rest exists by `File.file_exists`. -/
example : (∀ x ∈ demoItems, x.Valid Codec.demoOpts demoWords (2 ^ (Frame.windowOf (some 3)).toNat)) ∧
    Recode.InHistory 0 (demoItems.map (Item.ringCmd demoWords)) := by
  have : 2 ^ (Frame.windowOf (some 3)).toNat = 1024 := by decide +kernel
  rw [this]
  exact ⟨demoItems_valid, by simp [demoItems, Item.ringCmd, Recode.InHistory, Recode.Cmd.size, demoWords]⟩

/-- The values returned, the number of bytes left and the bytes given out. -/
def seen : Option (Codec.Res (Dec × List UInt8 × List UInt8 × List Ret)) → Option (Nat × List UInt8 × List Ret)
  | some (.ok (_, rest, out, rets)) => some (rest.length, out, rets)
  | _ => none

/-- A file of two commands, offered in pieces together with three bytes that do not belong to it; the caller
meets each of the three values. -/
example : seen (calls File.noWords 60 (.new false) (File.oddFile ++ [1, 2, 3])
      [(10, 3), (7, 3), (100, 3), (1, 0), (60, 3), (60, 3), (60, 5), (9, 9)]) =
    some (3, [97, 98, 99, 97, 98, 99, 97, 98, 99, 97, 98, 99, 97],
      [.needsInput, .needsInput, .needsOutput, .needsOutput, .needsOutput, .needsOutput, .success, .success]) := by
  decide +kernel

end Divans.Call
