import Verif.CallOwed
import Verif.CliProps

/-!
# How much comes out of how many bytes, and that decompressing comes to an end, whatever the bytes: C68, C69
-/

namespace Divans.Call
open Divans.Pipe Divans.File

section
variable {dw : Nat → Nat → Nat → List UInt8} {K : Nat}

theorem bound_ge (d : Dec) (q : Nat) : K * (65537 * q) ≤ d.bound dw K q := by
  unfold Dec.bound
  cases d.stage with
  | header got => exact Nat.le_refl _
  | body s =>
    simp only
    refine Nat.le_trans (Nat.mul_le_mul_left K ?_) (Nat.le_add_right _ _)
    unfold nibbles
    omega

theorem new_bound (skip : Bool) (q : Nat) : (Dec.new skip).bound dw K q = K * (65537 * q) := rfl

/-- Any calls: what they give out is no longer to come. -/
theorem calls_owed (hK : 2 ^ 32 + 15 ≤ K) (hdw : ∀ z i t, z ≤ 24 → (dw z i t).length ≤ K) : ∀ (cs : List (Nat × Nat)) {d d' : Dec}
    {fuel : Nat} {bytes rest out : List UInt8} {rets : List Ret}, DLive d → DFit dw d →
    calls dw fuel d bytes cs = some (.ok (d', rest, out, rets)) →
    d'.bound dw K rest.length + out.length ≤ d.bound dw K bytes.length ∧ rest.length ≤ bytes.length ∧
      ((∀ c ∈ cs, 0 < c.2) → rets.count .needsOutput ≤ out.length) := by
  intro cs
  induction cs with
  | nil => intro d d' fuel bytes rest out rets _ _ e; cases e; simp
  | cons c cs ih =>
    obtain ⟨offer, room⟩ := c
    intro d d' fuel bytes rest out rets hd hf e
    rw [calls] at e
    cases he : d.decode dw fuel (bytes.take offer) room with
    | none => rw [he] at e; cases e
    | some x =>
      rw [he] at e
      cases x with
      | fail => cases e
      | panic => cases e
      | ok r =>
        simp only [Option.map_eq_some_iff] at e
        obtain ⟨y, e1, e2⟩ := e
        cases y with
        | fail => cases e2
        | panic => cases e2
        | ok y =>
          obtain ⟨d1, rest1, out1, rets1⟩ := y
          simp only [Codec.Res.bind, Codec.Res.ok.injEq, Prod.mk.injEq] at e2
          obtain ⟨rfl, rfl, rfl, rfl⟩ := e2
          have hk := decode_kind hd he
          have hle : (bytes.take offer).length ≤ bytes.length := by rw [List.length_take]; omega
          have ho := decode_owed hK hdw hd hf he hle
          obtain ⟨g1, g2, g3⟩ := ih hk.inv ((decode_fit hd hf).2 r he) e1
          rw [List.length_drop] at g1 g2
          have hu := hk.used
          refine ⟨by rw [List.length_append]; omega, by omega, fun hpos => ?_⟩
          have h4 := g3 fun c hc => hpos c (List.mem_cons_of_mem _ hc)
          have h5 : 0 < room := hpos (offer, room) List.mem_cons_self
          rw [List.count_cons, List.length_append]
          by_cases hret : r.ret = .needsOutput
          · have := hk.full hret
            rw [hret]
            simp only [beq_self_eq_true, if_true]
            omega
          · have : (r.ret == Ret.needsOutput) = false := by simpa using hret
            rw [this]
            simp only [Bool.false_eq_true, if_false]
            omega

end

/-! ## C68: calls -/

/-- **C68.**  Any bytes, any calls, checked or not, and a dictionary whose words have at most `K` bytes: what the calls have
given out is at most `K * 65537` bytes for every byte they have taken, where `K` is at least `2^32 + 15`. -/
theorem output_bounded (dw : Nat → Nat → Nat → List UInt8) (K : Nat) (hK : 2 ^ 32 + 15 ≤ K)
    (hdw : ∀ z i t, z ≤ 24 → (dw z i t).length ≤ K) (fuel : Nat) (skip : Bool) (bytes : List UInt8) (cs : List (Nat × Nat))
    (d : Dec) (rest out : List UInt8) (rets : List Ret)
    (e : calls dw fuel (.new skip) bytes cs = some (.ok (d, rest, out, rets))) :
    out.length ≤ K * 65537 * (bytes.length - rest.length) := by
  obtain ⟨h1, h2, -⟩ := calls_owed hK hdw cs (new_live skip) trivial e
  rw [new_bound] at h1
  have h3 := bound_ge (dw := dw) (K := K) d rest.length
  obtain ⟨t, ht⟩ := Nat.exists_eq_add_of_le h2
  rw [ht, Nat.add_sub_cancel_left, Nat.mul_assoc]
  rw [ht, Nat.mul_add, Nat.mul_add] at h1
  omega

/-- **C68.**  When every call has room for something, no more calls ask for room than bytes have been given out; so no more
than in `output_bounded`: whoever provides room gets to the end. -/
theorem asks_for_room_bounded (dw : Nat → Nat → Nat → List UInt8) (K : Nat) (hK : 2 ^ 32 + 15 ≤ K)
    (hdw : ∀ z i t, z ≤ 24 → (dw z i t).length ≤ K) (fuel : Nat) (skip : Bool) (bytes : List UInt8) (cs : List (Nat × Nat))
    (hroom : ∀ c ∈ cs, 0 < c.2) (d : Dec) (rest out : List UInt8) (rets : List Ret)
    (e : calls dw fuel (.new skip) bytes cs = some (.ok (d, rest, out, rets))) :
    rets.count .needsOutput ≤ out.length ∧ rets.count .needsOutput ≤ K * 65537 * (bytes.length - rest.length) := by
  have h := (calls_owed hK hdw cs (new_live skip) trivial e).2.2 hroom
  exact ⟨h, h.trans (output_bounded dw K hK hdw fuel skip bytes cs d rest out rets e)⟩

end Divans.Call

namespace Divans.Cli
open Divans.Io (Ev bufSize srcBytes Complete Broken Past)
open Divans.Call (Dec calls DLive DFit DShut)

/-! ## C69: the command line program -/

/-- Bytes in which a file ends, with a trailer of any content, and more follows: header, blocks, end marker, eight bytes, and
then at least one more. -/
def EndsWithin (bytes : List UInt8) : Prop :=
  ∃ h w body sum more s, bytes = h ++ body ++ sum ++ more ∧ Frame.GoodHeader h w ∧ Mux.runAll .init body = some s ∧ s.eof = .done ∧
    sum.length = 8 ∧ more ≠ []

section
variable {dw : Nat → Nat → Nat → List UInt8} {K : Nat} {skip : Bool} {whole : List UInt8}

/-- A call that asks for input and leaves some of what it was offered. -/
def Refuses (dw : Nat → Nat → Nat → List UInt8) (skip : Bool) (whole : List UInt8) : Prop :=
  ∃ n d inp fut out rets room r, Past dw n skip whole d (inp ++ fut) out rets ∧ d.decode dw n inp room = some (.ok r) ∧
    r.ret = .needsInput ∧ r.used < inp.length

theorem unpackLoop_ends (hK : 2 ^ 32 + 15 ≤ K) (hdw : ∀ z i t, z ≤ 24 → (dw z i t).length ≤ K) {cap size : Nat} (hc : 0 < cap)
    (hz : 0 < size) : ∀ (m : Nat) (s : Unpack), 2 * (srcBytes s.src).length + 2 * s.dec.bound dw K (s.left.length + (srcBytes s.src).length) +
        s.out.length = m → DFit dw s.dec → s.dec.skip = skip →
      (∃ N total rets, ∀ n, N ≤ n → Past dw n skip whole s.dec (s.left ++ srcBytes s.src) total rets) → Whole s.src → s.out.length ≤ size →
      s.last + (srcBytes s.src).length ≤ whole.length →
      (∃ f0 s' e, ∀ n k, f0 ≤ n → f0 ≤ k → unpackLoop dw n cap size k s = some (s', e)) ∨
        cap ≤ whole.length ∧ Refuses dw skip whole := by
  intro m
  induction m using Nat.strong_induction_on with
  | _ m ih =>
    intro s hme hf hsk ⟨N, total, rets, hp⟩ hw hso hla
    have hlive := (hp N (Nat.le_refl _)).live
    obtain ⟨k1, x, e, hx⟩ := Call.decode_any dw hlive s.left (size - s.out.length)
    cases x with
    | fail =>
      refine .inl ⟨k1 + 1, s, .codecErr, fun n k hn hk => ?_⟩
      obtain ⟨k, rfl⟩ : ∃ j, k = j + 1 := ⟨k - 1, by omega⟩
      rw [unpackLoop, e n (by omega)]
    | panic =>
      refine .inl ⟨k1 + 1, s, .crash, fun n k hn hk => ?_⟩
      obtain ⟨k, rfl⟩ : ∃ j, k = j + 1 := ⟨k - 1, by omega⟩
      rw [unpackLoop, e n (by omega)]
    | ok r =>
      have hkd := hx r rfl
      have hf' := (Call.decode_fit hlive hf).2 r (e k1 (Nat.le_refl _))
      have ho := Call.decode_owed hK hdw hlive hf (e k1 (Nat.le_refl _)) (q := s.left.length + (srcBytes s.src).length) (Nat.le_add_right _ _)
      have hu := hkd.used
      have hp' : ∀ n, max N k1 ≤ n → Past dw n skip whole r.dec (s.left.drop r.used ++ srcBytes s.src) (total ++ r.out) (rets ++ [r.ret]) :=
        fun n hn => (hp n (by omega)).step (e n (by omega))
      have hlen : (s.left.drop r.used).length + (srcBytes s.src).length = s.left.length + (srcBytes s.src).length - r.used := by
        rw [List.length_drop]; omega
      rw [← hlen] at ho
      have hr1 := hkd.len
      cases hret : r.ret with
      | success =>
        refine .inl ⟨k1 + 1, ((Unpack.flushed ⟨r.dec, s.left.drop r.used, s.last, s.out ++ r.out, s.src, s.sink, s.written⟩).1),
          if ((Unpack.flushed ⟨r.dec, s.left.drop r.used, s.last, s.out ++ r.out, s.src, s.sink, s.written⟩).2) then .ok else .ioErr, fun n k hn hk => ?_⟩
        obtain ⟨k, rfl⟩ : ∃ j, k = j + 1 := ⟨k - 1, by omega⟩
        rw [unpackLoop, e n (by omega)]
        simp only [hret]
      | needsOutput =>
        have g1 := hkd.full hret
        cases hfl : (Unpack.flushed ⟨r.dec, s.left.drop r.used, s.last, s.out ++ r.out, s.src, s.sink, s.written⟩).2 with
        | false =>
          refine .inl ⟨k1 + 1, ((Unpack.flushed ⟨r.dec, s.left.drop r.used, s.last, s.out ++ r.out, s.src, s.sink, s.written⟩).1), .ioErr, fun n k hn hk => ?_⟩
          obtain ⟨k, rfl⟩ : ∃ j, k = j + 1 := ⟨k - 1, by omega⟩
          rw [unpackLoop, e n (by omega)]
          simp only [hret, hfl, Bool.false_eq_true, if_false]
        | true =>
          rcases ih _ (by
              rw [← hme]
              show 2 * (srcBytes s.src).length + 2 * r.dec.bound dw K ((s.left.drop r.used).length + (srcBytes s.src).length) + 0 < _
              omega)
            (Unpack.flushed ⟨r.dec, s.left.drop r.used, s.last, s.out ++ r.out, s.src, s.sink, s.written⟩).1
            rfl hf' (hkd.skip.trans hsk) ⟨_, _, _, hp'⟩ hw (Nat.zero_le _) hla with ⟨f2, s', e', l1⟩ | h
          · refine .inl ⟨max k1 f2 + 1, s', e', fun n k hn hk => ?_⟩
            obtain ⟨k, rfl⟩ : ∃ j, k = j + 1 := ⟨k - 1, by omega⟩
            rw [unpackLoop, e n (by omega)]
            simp only [hret]
            rw [if_pos (by exact hfl)]
            exact l1 n k (by omega) (by omega)
          · exact .inr h
      | needsInput =>
        obtain ⟨last, hlast⟩ : ∃ last, last = if s.left.drop r.used = [] then 0 else s.last := ⟨_, rfl⟩
        have hla' : last + (srcBytes s.src).length ≤ whole.length := by
          rw [hlast]; split <;> omega
        by_cases hpl : cap - last = 0
        · refine .inr ⟨by omega, max N k1, s.dec, s.left, srcBytes s.src, total, rets, size - s.out.length, r,
            hp _ (Nat.le_max_left _ _), e _ (Nat.le_max_right _ _), hret, ?_⟩
          by_contra h0
          rw [if_pos (List.drop_eq_nil_of_le (by omega))] at hlast
          omega
        obtain ⟨src', q1, q2, q3⟩ := fill_spec (place := cap - last) (by omega) s.src hw
        rcases q3 with ⟨bs, q3, q4, q5, q6⟩ | ⟨q3, q4⟩ | ⟨q3, q4⟩
        · have hpos := List.length_pos_iff.2 q4
          have q7 := congrArg List.length q6
          rw [List.length_append] at q7
          rcases ih _ (by
              rw [← hme]
              show 2 * (srcBytes src').length + 2 * r.dec.bound dw K ((s.left.drop r.used ++ bs).length + (srcBytes src').length) + (s.out ++ r.out).length < _
              have : (s.left.drop r.used ++ bs).length + (srcBytes src').length = (s.left.drop r.used).length + (srcBytes s.src).length := by
                rw [List.length_append]; omega
              rw [this, List.length_append]
              omega)
            ⟨r.dec, s.left.drop r.used ++ bs, last + bs.length, s.out ++ r.out, src', s.sink, s.written⟩
            rfl hf' (hkd.skip.trans hsk) ⟨max N k1, _, _, fun n hn => by
              have := hp' n hn
              rw [q6, ← List.append_assoc] at this
              exact this⟩ q2 (by show (s.out ++ r.out).length ≤ size; rw [List.length_append]; omega)
            (by show last + bs.length + (srcBytes src').length ≤ _; omega) with ⟨f2, s', e', l1⟩ | h
          · refine .inl ⟨max k1 f2 + 1, s', e', fun n k hn hk => ?_⟩
            obtain ⟨k, rfl⟩ : ∃ j, k = j + 1 := ⟨k - 1, by omega⟩
            rw [unpackLoop, e n (by omega)]
            simp only [hret, ← hlast, q3]
            exact l1 n k (by omega) (by omega)
          · exact .inr h
        · refine .inl ⟨k1 + 1, (⟨r.dec, s.left.drop r.used, s.last, s.out ++ r.out, src', s.sink, s.written⟩), .noEnd, fun n k hn hk => ?_⟩
          obtain ⟨k, rfl⟩ : ∃ j, k = j + 1 := ⟨k - 1, by omega⟩
          rw [unpackLoop, e n (by omega)]
          simp only [hret, ← hlast, q3]
        · refine .inl ⟨k1 + 1, (⟨r.dec, s.left.drop r.used, s.last, s.out ++ r.out, src', s.sink, s.written⟩), .ioErr, fun n k hn hk => ?_⟩
          obtain ⟨k, rfl⟩ : ∃ j, k = j + 1 := ⟨k - 1, by omega⟩
          rw [unpackLoop, e n (by omega)]
          simp only [hret, ← hlast, q3]

/-- Behind the trailer. -/
theorem past_shut {n : Nat} {d : Dec} {rest out : List UInt8} {rets : List Call.Ret} (h : Past dw n skip whole d rest out rets)
    (hd : DShut d) (hr : rest ≠ []) : EndsWithin whole := by
  obtain ⟨s, hs, h1, h2⟩ := hd
  obtain ⟨cs, h⟩ := h
  obtain ⟨f, x, ⟨acts, g1, g2⟩, ⟨-, -, hp, hst⟩, hx, -, -⟩ := Call.calls_sim cs (Call.pair_new skip whole) h
  obtain ⟨hseen, -⟩ := File.seen_run acts (File.seen_new skip) g1
  rw [hs] at hst
  unfold File.Seen at hseen
  cases hf : f.stage with
  | header got => rw [hf] at hst; exact hst.elim
  | body B =>
    rw [hf] at hst hseen
    simp only at hst hseen
    obtain ⟨hh, w, sc, body, k1, k2, k3, k4, -, -, -, k7, k8⟩ := hseen
    have hB : B.mux = s.b.mux ∧ B.sum = s.b.sum := by
      rcases hst.near with e | ⟨k, -, -, e⟩
      · rw [← e]; exact ⟨rfl, rfl⟩
      · have e1 : s.abs.mux = (Call.moved B k).mux := by rw [e]
        have e2 : s.abs.sum = (Call.moved B k).sum := by rw [e]
        exact ⟨e1.symm, e2.symm⟩
    have g3 : File.fed acts = x ++ f.pending := g2
    rw [List.nil_append, g3] at k8
    have hxx : x = hh ++ body ++ B.sum := List.append_cancel_right k8
    exact ⟨hh, w, body, B.sum, rest, sc, by rw [hx, hxx], k1, k2, by rw [k3, hB.1, h1], by rw [hB.2, h2], hr⟩

theorem refuses_cause (h : Refuses dw skip whole) : Broken whole ∨ EndsWithin whole := by
  obtain ⟨n, d, inp, fut, out, rets, room, r, h1, h2, -, h4⟩ := h
  by_cases hb : Broken whole
  · exact .inl hb
  refine .inr ?_
  have hl := (Call.decode_left h1.live h2).1
  have h5 := h1.step h2
  have hne : inp.drop r.used ≠ [] := fun h0 => by
    have := congrArg List.length h0
    rw [List.length_drop, List.length_nil] at this
    omega
  rcases h5.left hb hl with h0 | h0
  · exact absurd h0 hne
  · exact past_shut h5 h0 (by simp [hne])

end

/-- **C69, partial.**  Any bytes in any pieces, with any errors and interruptions of source and sink, any size of buffer, and a dictionary
whose words have some greatest length.  The program ends; unless there are at least as many bytes as the buffer holds, and
they contain either a broken end marker, or the end of a file with something behind it.  Missing: those; there it does not hold
(`decompress_tool_hangs`). -/
theorem decompress_tool_ends_partial (dw : Nat → Nat → Nat → List UInt8) (K : Nat) (hdw : ∀ z i t, z ≤ 24 → (dw z i t).length ≤ K)
    (skip : Bool) (size : Nat) (extra : List UInt8) (src : List Ev) (sink : List WEv) (hw : Whole src)
    (hb : (extra ++ srcBytes src).length < max (bufSize size) extra.length ∨
      ¬ Broken (extra ++ srcBytes src) ∧ ¬ EndsWithin (extra ++ srcBytes src)) :
    ∃ f0 written e, ∀ n rounds, f0 ≤ n → f0 ≤ rounds → decompress dw n rounds skip size extra src sink = some (written, e) := by
  have hz := bufSize_pos size
  rcases unpackLoop_ends (dw := dw) (K := max K (2 ^ 32 + 15)) (skip := skip) (whole := extra ++ srcBytes src) (Nat.le_max_right _ _)
    (fun z i t h => (hdw z i t h).trans (Nat.le_max_left _ _)) (cap := max (bufSize size) extra.length) (size := bufSize size)
    (by omega) hz _ ⟨.new skip, extra, extra.length, [], src, sink, []⟩ rfl trivial rfl ⟨0, [], [], fun n _ => ⟨[], rfl⟩⟩ hw
    (Nat.zero_le _) (by simp) with ⟨f0, s', e, h⟩ | ⟨h1, h2⟩
  · exact ⟨f0, s'.written, e, fun n k hn hk => by rw [decompress, h n k hn hk]; rfl⟩
  · rcases hb with hb | ⟨hb1, hb2⟩
    · omega
    · rcases refuses_cause h2 with h | h
      · exact absurd h hb1
      · exact absurd h hb2

/-! ## The theorems are not vacuous -/

/-- Does a file end in front of the last bytes, behind `k` bytes of the streams? -/
def endsAt (bytes : List UInt8) (k : Nat) : Bool :=
  match Mux.runAll .init ((bytes.drop 16).take k) with
  | none => false
  | some s => decide (s.eof = .done ∧ k + 24 < bytes.length)

theorem ends_at {bytes : List UInt8} (h : EndsWithin bytes) : ∃ k, k < bytes.length ∧ endsAt bytes k = true := by
  obtain ⟨hd, w, body, sum, more, s, h1, h2, h3, h4, h5, h6⟩ := h
  have hl : hd.length = 16 := h2.1
  have hm := List.length_pos_iff.2 h6
  have hlen : bytes.length = 16 + body.length + 8 + more.length := by rw [h1]; simp only [List.length_append]; omega
  refine ⟨body.length, by omega, ?_⟩
  have e1 : bytes.drop 16 = body ++ (sum ++ more) := by
    rw [h1, List.append_assoc, List.append_assoc, ← hl, List.drop_left]
  unfold endsAt
  rw [e1, List.take_left, h3]
  simp only [h4, true_and, decide_eq_true_eq]
  omega

/-- The bytes of the examples: a file that is cut off and goes on with something else. -/
def torn : List UInt8 := File.oddFile.take 44 ++ [1, 2, 3]

theorem torn_plain : ¬ Broken torn ∧ ¬ EndsWithin torn := by
  constructor
  · intro h
    obtain ⟨k, h1, h2⟩ := Io.broken_at h
    have : ∀ k, k < torn.length → Io.brokenAt torn k = false := by decide +kernel
    rw [this k h1] at h2
    cases h2
  · intro h
    obtain ⟨k, h1, h2⟩ := ends_at h
    have : ∀ k, k < torn.length → endsAt torn k = false := by decide +kernel
    rw [this k h1] at h2
    cases h2

/-- Bytes that are no file, a buffer that is smaller than they are, in pieces, with an interruption: the program ends. -/
example : ∃ f0 written e, ∀ n rounds, f0 ≤ n → f0 ≤ rounds →
    decompress File.noWords n rounds false 7 [] [.data (torn.take 20), .interrupted, .data (torn.drop 20)] [.took 1] = some (written, e) := by
  refine decompress_tool_ends_partial File.noWords 0 (fun _ _ _ _ => by simp [File.noWords]) false 7 [] _ _ ?_ (.inr ?_)
  · unfold Whole; decide +kernel
  · have : [] ++ srcBytes [.data (torn.take 20), .interrupted, .data (torn.drop 20)] = torn := by decide +kernel
    rw [this]
    exact torn_plain

/-- A broken end marker in fewer bytes than the buffer holds: it ends. -/
example : Broken (Frame.makeHeader 22 ++ [0xff, 0xff, 1]) ∧ ∃ f0 written e, ∀ n rounds, f0 ≤ n → f0 ≤ rounds →
    decompress File.noWords n rounds true 0 [] [.data (Frame.makeHeader 22 ++ [0xff, 0xff, 1])] [] = some (written, e) := by
  refine ⟨⟨Frame.makeHeader 22, 22, [0xff], 0xff, [1], ⟨.none, .start, fun _ => []⟩, by simp, ⟨by decide +kernel, by decide +kernel,
    by decide +kernel, by decide, by decide⟩, rfl, rfl, .inl ⟨rfl, by decide⟩⟩, ?_⟩
  refine decompress_tool_ends_partial File.noWords 0 (fun _ _ _ _ => by simp [File.noWords]) true 0 [] _ _ ?_ (.inl ?_)
  · unfold Whole; decide +kernel
  · decide +kernel

/-- The other exception: the end of a file comes too early, and more follows than the buffer holds.  The end marker and the
trailer are taken, the bytes behind are not, and the program goes round. -/
def early : List UInt8 := Frame.makeHeader 22 ++ [0xff, 0xfe, 0xff] ++ List.replicate 15 7

example : endsAt early 3 = true ∧ decompress File.noWords 60 200 true 4 [] [.data early] [] = none ∧
    decompress File.noWords 60 200 true 100 [] [.data early] [] = some ([], .noEnd) := by
  decide +kernel

end Divans.Cli

namespace Divans.Call

/-- Eight calls that take the file and give out more than was asked for at a time. -/
example : seen (calls File.noWords 60 (.new false) File.oddFile [(100, 3), (0, 3), (100, 1), (1, 1), (1, 2), (1, 2), (1, 1), (1, 1)]) =
    some (0, [97, 98, 99, 97, 98, 99, 97, 98, 99, 97, 98, 99, 97],
      [.needsOutput, .needsOutput, .needsOutput, .needsOutput, .needsOutput, .needsOutput, .success, .success]) := by
  decide +kernel

end Divans.Call
