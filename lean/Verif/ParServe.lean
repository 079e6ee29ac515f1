import Verif.ParIo

/-!
# A decompressor that serves a file, in the adaptors, the program and the C interface

The proofs of `Verif.IoDec`, `Verif.IoWrite`, `Verif.CliRun` and `Verif.FfiProps` for any decompressor.
-/

namespace Divans.Par
open Divans.Io (Slot Proc Ev Reader Writer Contract WContract srcBytes bufSize ofRet Held pull_got loop_again fed_round stillNeeds srcSize pending_len Entry readToEnd loop_mono Got Stop)
open Divans.Call (Ret)
open Divans.Cli (Whole drain_spec fill_spec fill_bytes)

variable {δ : Type} {D : Decoder δ} {data tail missing : List UInt8} {G : δ → List UInt8 → List UInt8 → Prop}

/-- Calls of the decompressor go well as long as `G` holds of it, the bytes not taken and the bytes given out. -/
structure Follows (D : Decoder δ) (G : δ → List UInt8 → List UInt8 → Prop) (data tail : List UInt8) : Prop where
  step : ∀ d rest out, G d rest out → ∀ offer room, tail <:+ rest ∧ ∃ k d' used o ret,
      (∀ fuel, k ≤ fuel → D fuel d (rest.take offer) room = some (.ok (d', used, o, ret))) ∧
      G d' (rest.drop used) (out ++ o) ∧
      used ≤ (rest.take offer).length ∧ (used < (rest.take offer).length → rest.drop used = tail) ∧
      o.length ≤ room ∧ out ++ o <+: data ∧
      (ret = .needsInput → used = (rest.take offer).length ∧ tail.length < (rest.drop offer).length) ∧
      (ret = .needsOutput → o.length = room) ∧
      (ret = .success → out ++ o = data ∧ rest.drop used = tail)

/-- `G` of a decompressor inside an adaptor. -/
def InSlot (G : δ → List UInt8 → List UInt8 → Prop) : Slot δ → List UInt8 → List UInt8 → Prop
  | .live d, rest, out => G d rest out
  | _, _, _ => False

theorem slot_pre (hs : Follows D G data tail) {c : Slot δ} {rest out : List UInt8} (h : InSlot G c rest out) : out <+: data := by
  cases c with
  | live d =>
    obtain ⟨-, k, d', used, o, ret, -, -, -, -, -, h, -⟩ := hs.step _ _ _ h 0 0
    exact (List.prefix_append _ _).trans h
  | failed => exact absurd h id
  | crashed => exact absurd h id

/-- How far a decompressor is from the end. -/
def left (data : List UInt8) (x : Slot δ × List UInt8 × List UInt8) : Nat := x.2.1.length + (data.length - x.2.2.length)

theorem left_wf (data : List UInt8) : WellFounded (fun (x y : Slot δ × List UInt8 × List UInt8) => left data x < left data y) :=
  InvImage.wf (left data) Nat.lt_wfRel.wf

/-! ## In a reader -/

/-- The decompressor, fed a file or the beginning of a file. -/
theorem contract (hs : Follows D G data []) (missing : List UInt8) :
    Contract (fun fuel => procOf D fuel) (fun c rest out => InSlot G c (rest ++ missing) out) (fun _ => False)
      (fun _ out => out = data ∧ missing = []) (missing ≠ []) (fun x y => left data x < left data y) := by
  constructor
  · intro c inp fut out cap h hne hcap
    cases c with
    | failed => exact absurd h id
    | crashed => exact absurd h id
    | live d =>
      obtain ⟨-, k, d', used, o, ret, e, h1, h2, h3, h4, h5, h6, h7, h8⟩ := hs.step _ _ _ h inp.length cap
      have htake : (inp ++ fut ++ missing).take inp.length = inp := by rw [List.append_assoc, List.take_left]
      rw [htake] at e h2 h3 h6
      have hpos : 0 < inp.length := List.length_pos_iff.2 hne
      have hused : used = inp.length := by
        rcases Nat.lt_or_eq_of_le h2 with h0 | h0
        · have := congrArg List.length (h3 h0)
          rw [List.length_drop, List.length_append, List.length_append, List.length_nil] at this
          omega
        · exact h0
      have hdrop : (inp ++ fut ++ missing).drop used = inp.drop used ++ fut ++ missing := by
        rw [List.append_assoc, List.drop_append_of_le_length (by omega), List.append_assoc]
      rw [hdrop] at h1
      have hle := h5.length_le
      rw [List.length_append] at hle
      refine ⟨k, .live d', used, o, ofRet ret, fun fuel hf => ?_, h2, h4, fun _ => h1, fun _ => ?_, ?_, ?_, ?_, ?_⟩
      · show stepOf D fuel (.live d) inp cap = _
        unfold stepOf
        simp only [e fuel hf]
      · simp only [left, List.length_append, List.length_drop]
        omega
      · intro h0; cases hr : ret <;> rw [hr] at h0 <;> cases h0
      · intro _; exact ⟨hused, fun _ h0 => absurd h0 id⟩
      · intro h0
        have hr : ret = .needsOutput := by cases hr : ret <;> rw [hr] at h0 <;> first | rfl | cases h0
        refine ⟨fun h9 => ?_, fun h9 => by omega⟩
        have := h7 hr
        rw [h9] at this
        simp at this
        omega
      · intro h0
        have hr : ret = .success := by cases hr : ret <;> rw [hr] at h0 <;> first | rfl | cases h0
        obtain ⟨q1, q2⟩ := h8 hr
        rw [hdrop] at q2
        obtain ⟨q3, q4⟩ := List.append_eq_nil_iff.1 q2
        exact ⟨q3, q1, q4⟩
  · intro c out cap h hcap
    cases c with
    | failed => exact absurd h id
    | crashed => exact absurd h id
    | live d =>
      obtain ⟨-, k, d', used, o, ret, e, h1, h2, h3, h4, h5, h6, h7, h8⟩ := hs.step _ _ _ h 0 cap
      simp only [List.take_zero, List.length_nil, List.drop_zero, List.nil_append] at e h2 h6
      have hu : used = 0 := by omega
      rw [hu, List.drop_zero] at h1
      refine ⟨k, .live d', o, if ofRet ret = .needsInput then .failure else ofRet ret, fun fuel hf => ?_, h4, fun _ => h1, ?_, ?_, ?_, ?_,
        fun _ ho => ?_⟩
      · show closeOf D fuel (.live d) cap = _
        unfold closeOf stepOf
        simp only [e fuel hf]
      · intro h0 h9
        cases hr : ret <;> rw [hr] at h0
        · cases h0
        · have := h7 hr
          rw [h9] at this
          simp at this
          omega
        · cases h0
      · intro h0
        cases hr : ret <;> rw [hr] at h0 <;> cases h0
      · intro h0 h9
        cases hr : ret <;> rw [hr] at h0
        · have := (h6 hr).2
          rw [h9] at this
          simp at this
        · cases h0
        · cases h0
      · intro h0
        have hr : ret = .success := by cases hr : ret <;> rw [hr] at h0 <;> first | rfl | cases h0
        obtain ⟨q1, q2⟩ := h8 hr
        rw [hu] at q2
        exact ⟨q1, by simpa using q2⟩
      · have hle := h5.length_le
        have := List.length_pos_iff.2 ho
        rw [List.length_append] at hle
        simp only [left, List.length_append]
        omega

/-! ## In a writer -/

theorem wcontract (hs : Follows D G data []) (missing : List UInt8) :
    WContract (fun fuel => procOf D fuel) (fun c rest out => InSlot G c (rest ++ missing) out)
      (fun _ rest out => rest ++ missing = [] → out = data) (fun x y => left data x < left data y) := by
  constructor
  intro c inp fut out cap h hcap
  cases c with
  | failed => exact absurd h id
  | crashed => exact absurd h id
  | live d =>
    obtain ⟨-, k, d', used, o, ret, e, h1, h2, h3, h4, h5, h6, h7, h8⟩ := hs.step _ _ _ h inp.length cap
    have htake : (inp ++ fut ++ missing).take inp.length = inp := by rw [List.append_assoc, List.take_left]
    have hdr : (inp ++ fut ++ missing).drop inp.length = fut ++ missing := by rw [List.append_assoc, List.drop_left]
    rw [htake] at e h2 h3 h6
    rw [hdr] at h6
    have hused : used = inp.length := by
      rcases Nat.lt_or_eq_of_le h2 with h0 | h0
      · have := congrArg List.length (h3 h0)
        rw [List.length_drop, List.length_append, List.length_append, List.length_nil] at this
        omega
      · exact h0
    rw [hused, hdr] at h1
    rw [hused, hdr] at h8
    have hle := h5.length_le
    rw [List.length_append] at hle
    have hnil : inp.drop used = [] := by rw [hused]; exact List.drop_length
    refine ⟨k, .live d', used, o, ofRet ret, fun fuel hf => ?_, by rw [hnil]; exact h1, ?_, ?_, fun h0 => ⟨hnil, fun h9 => ?_⟩⟩
    · show stepOf D fuel (.live d) inp cap = _
      unfold stepOf
      simp only [e fuel hf]
    · intro h0; cases hr : ret <;> rw [hr] at h0 <;> cases h0
    · intro h0
      have hr : ret = .needsOutput := by cases hr : ret <;> rw [hr] at h0 <;> first | rfl | cases h0
      have := h7 hr
      simp only [left, List.length_append, List.length_drop]
      omega
    · cases hr : ret with
      | needsInput =>
        have := (h6 hr).2
        rw [h9] at this
        simp at this
      | needsOutput => rw [hr] at h0; exact absurd rfl h0
      | success => exact (h8 hr).1

/-! ## A reader with bytes behind the file -/

/-- The reader, with bytes behind the file still to come. -/
abbrev HeldT (G : δ → List UInt8 → List UInt8 → Prop) :=
  Held (InSlot G) (fun _ => True)

theorem slot_tail (hs : Follows D G data tail) {c : Slot δ} {rest out : List UInt8}
    (h : InSlot G c rest out) : tail <:+ rest := by
  cases c with
  | live d => exact (hs.step _ _ _ h 0 0).1
  | failed => exact absurd h id
  | crashed => exact absurd h id

/-- One round: the source is asked, and something is there for the codec. -/
theorem pull_tail (hs : Follows D G data tail) (ht : tail ≠ []) {s : Reader (Slot δ)} {out : List UInt8} {needs : Bool}
    (hh : HeldT G s out) (hn : needs = true → s.avail = 0) :
    ¬ (needs = true ∧ s.eof = true) ∧
    (s.pull.2 = some .again ∧ HeldT G s.pull.1 out ∧ (needs = true → s.pull.1.avail = 0) ∧
        (s.pull.1.cd, s.pull.1.pending ++ srcBytes s.pull.1.src) = (s.cd, s.pending ++ srcBytes s.src) ∧
        srcSize s.pull.1.src < srcSize s.src ∨
      s.pull.2 ≠ some .again ∧ s.pull.1.avail ≠ 0 ∧ (stillNeeds s.pull.2 needs = false)) := by
  obtain ⟨g1, g2, g3, g4, g5, g6, g7, g8, g9, g10, g11⟩ := pull_got s hh.off hh.len hh.clean hh.eof
  have hne : s.pending ++ srcBytes s.src ≠ [] := fun h0 => by
    have := slot_tail hs hh.ok
    rw [h0] at this
    exact ht (List.suffix_nil.1 this)
  have key : ∀ t : Reader (Slot δ), t.len ≤ t.buf.length → t.avail = 0 → t.src = [] → t.pending ++ srcBytes t.src = [] := by
    intro t q1 q2 q3
    have : t.pending = [] := List.eq_nil_of_length_eq_zero (by rw [pending_len _ q1]; exact q2)
    rw [this, q3]
    rfl
  have h0 : ¬ (needs = true ∧ s.eof = true) := fun h => hne (key s hh.len (hn h.1) (hh.eof h.2))
  refine ⟨h0, ?_⟩
  rcases g11 with h | h | h | h
  · right
    have hav : s.avail ≠ 0 := fun h1 => by
      rcases h.2.2 with h2 | h2
      · have := hh.place h1
        omega
      · exact hne (key s hh.len h1 (hh.eof h2))
    refine ⟨by rw [h.1]; simp, by rw [h.2.1]; exact hav, ?_⟩
    rw [h.1]
    cases hnd : needs with
    | false => rfl
    | true => exact absurd (hn hnd) hav
  · right
    have hav : s.avail ≠ 0 := fun h1 => by
      have := key s.pull.1 g3 (by rw [h.2.2.2]; exact h1) (g8 h.2.1)
      rw [g9] at this
      exact hne this
    refine ⟨by rw [h.1]; simp, by rw [h.2.2.2]; exact hav, ?_⟩
    rw [h.1]
    cases hnd : needs with
    | false => rfl
    | true => exact absurd (hn hnd) hav
  · left
    obtain ⟨h1, a1, a2, a3, a4⟩ := h
    refine ⟨h1, ?_, fun hnd => by rw [a1]; exact hn hnd, by rw [g1, g9], a4⟩
    refine ⟨g2, g3, fun h1 => ?_, g5.trans hh.err, g7, g8, by rw [g1, g9]; exact hh.ok, fun _ => trivial⟩
    rw [a3, g4]; exact hh.place (by rw [← a1]; exact h1)
  · right
    obtain ⟨⟨bs, hb⟩, _, _, h4, _⟩ := h
    refine ⟨by rw [hb]; simp, by omega, by rw [hb]; rfl⟩

/-- After the end of the file the loop of `read` goes round and round. -/
theorem over_loops (hs : Follows D G data tail) (ht : tail ≠ []) {cap : Nat} (hcap : 0 < cap) :
    ∀ (n : Nat) (s : Reader (Slot δ)) (needs : Bool) (log : List Entry), HeldT G s data →
      s.pending ++ srcBytes s.src = tail → (needs = true → s.avail = 0) →
      ∃ k, ∀ f, k ≤ f → s.loop (procOf D f) cap n needs log = none := by
  intro n
  induction n with
  | zero => intro s needs log _ _ _; exact ⟨0, fun _ _ => rfl⟩
  | succ n ih =>
    intro s needs log hh hrest hn
    obtain ⟨h0, h1 | ⟨hag, hav, hst⟩⟩ := pull_tail hs ht hh hn
    · obtain ⟨h1, h2, h3, h4, -⟩ := h1
      obtain ⟨k, e⟩ := ih s.pull.1 needs (log ++ [.again]) h2 (by rw [(Prod.mk.inj h4).2]; exact hrest) h3
      exact ⟨k, fun f hf => by rw [loop_again _ cap n s needs log h0 h1]; exact e f hf⟩
    · obtain ⟨g1, g2, g3, g4, g5, g6, g7, g8, g9, g10, -⟩ := pull_got s hh.off hh.len hh.clean hh.eof
      have hok := hh.ok
      rw [← g1, ← g9] at hok
      rw [← g9] at hrest
      cases hcd : s.pull.1.cd with
      | failed => rw [hcd] at hok; exact absurd hok id
      | crashed => rw [hcd] at hok; exact absurd hok id
      | live d =>
        rw [hcd] at hok
        obtain ⟨-, k, d', used, o, ret, e, r1, r2, r3, r4, r5, r6, r7, r8⟩ := hs.step _ _ _ hok s.pull.1.pending.length cap
        rw [List.take_left] at e r2 r3 r6
        have hout : o = [] := by
          have := r5.length_le
          rw [List.length_append] at this
          exact List.eq_nil_of_length_eq_zero (by omega)
        have hdrop : ∀ m, (s.pull.1.pending ++ srcBytes s.pull.1.src).drop m = tail → m ≤ s.pull.1.pending.length → m = 0 := by
          intro m hm hle
          have := congrArg List.length hm
          rw [List.length_drop, hrest] at this
          have := congrArg List.length hrest
          rw [List.length_append] at this
          have : 0 < s.pull.1.pending.length := by rw [pending_len _ g3]; omega
          omega
        have hret : ret = .success := by
          cases hr : ret with
          | success => rfl
          | needsInput =>
            have := (r6 hr).2
            rw [List.drop_left] at this
            have := congrArg List.length hrest
            rw [List.length_append] at this
            omega
          | needsOutput =>
            have := r7 hr
            rw [hout] at this
            simp at this
            omega
        have hused : used = 0 := hdrop used (r8 hret).2 r2
        have e1 : ∀ f, k ≤ f → (procOf D f).process s.pull.1.cd s.pull.1.pending cap = (.live d', 0, [], .success) := by
          intro f hf
          show stepOf D f s.pull.1.cd s.pull.1.pending cap = _
          rw [hcd]
          unfold stepOf
          simp only [e f hf, hused, hout, hret, ofRet]
        obtain ⟨s3, q1, q2, q3, q4, q5, q6, q7, q8, q9, hround⟩ :=
          fed_round (log := log) h0 hag g2 g3 (g5.trans hh.err) hav e1 (Nat.zero_le _)
        rw [Nat.sub_zero] at q5
        rw [List.drop_zero] at q2
        rw [hused, List.drop_zero, hout, List.append_nil] at r1
        have hh3 : HeldT G s3 data :=
          ⟨q6, q7, q8, q9, by rw [q3]; exact g7, by rw [q4, q3]; exact g8, by rw [q1, q2, q3]; exact r1, fun _ => trivial⟩
        obtain ⟨k2, e2⟩ := ih s3 false (log ++ s.pull.2.toList ++ [.fed s.pull.1.pending 0 [] .success]) hh3 (by rw [q2, q3]; exact hrest)
          (fun h => by cases h)
        refine ⟨max k k2, fun f hf => ?_⟩
        rw [hround f (by omega) n, if_neg (by simp), if_neg (by rw [q5]; exact fun h => hav h.2.2.1), if_pos rfl,
          if_neg (by rw [q5]; exact hav), hst]
        exact e2 f (by omega)

/-- One `read`: it returns further bytes of the data, or goes round and round after the last of them. -/
theorem tail_read (hs : Follows D G data tail) (ht : tail ≠ []) {cap : Nat} (hcap : 0 < cap) :
    ∀ (m m2 : Nat) (s : Reader (Slot δ)) (needs : Bool) (log : List Entry) (out : List UInt8),
      left data (s.cd, s.pending ++ srcBytes s.src, out) ≤ m → srcSize s.src < m2 → HeldT G s out →
      (needs = true → s.avail = 0) →
      (∃ k s' log' bs, bs ≠ [] ∧ (∀ f, k ≤ f → ∀ n, k ≤ n → s.loop (procOf D f) cap n needs log = some (s', log', .ok bs)) ∧
        HeldT G s' (out ++ bs)) ∨
      (out = data ∧ ∀ n, ∃ k, ∀ f, k ≤ f → s.loop (procOf D f) cap n needs log = none) := by
  intro m
  induction m with
  | zero =>
    intro m2 s needs log out hm _ hh _
    have := (slot_tail hs hh.ok).length_le
    have : 0 < tail.length := List.length_pos_iff.2 ht
    simp only [left] at hm
    omega
  | succ m ihm =>
    intro m2
    induction m2 with
    | zero => intro s needs log out _ h; omega
    | succ m2 ih2 =>
      intro s needs log out hm hm2 hh hn
      obtain ⟨h0, h1 | ⟨hag, hav, hst⟩⟩ := pull_tail hs ht hh hn
      · obtain ⟨h1, h2, h3, h4, h5⟩ := h1
        rcases ih2 s.pull.1 needs (log ++ [.again]) out (by
          have := hm
          simp only [left] at this ⊢
          rw [(Prod.mk.inj h4).2]
          exact this) (by omega) h2 h3 with ⟨k, s', log', bs, hb, e, hr⟩ | ⟨hd, hl⟩
        · refine Or.inl ⟨k + 1, s', log', bs, hb, fun f hf n hn' => ?_, hr⟩
          obtain ⟨n, rfl⟩ : ∃ n', n = n' + 1 := ⟨n - 1, by omega⟩
          rw [loop_again _ cap n s needs log h0 h1]
          exact e f (by omega) n (by omega)
        · refine Or.inr ⟨hd, fun n => ?_⟩
          cases n with
          | zero => exact ⟨0, fun _ _ => rfl⟩
          | succ n =>
            obtain ⟨k, e⟩ := hl n
            exact ⟨k, fun f hf => by rw [loop_again _ cap n s needs log h0 h1]; exact e f hf⟩
      · obtain ⟨g1, g2, g3, g4, g5, g6, g7, g8, g9, g10, -⟩ := pull_got s hh.off hh.len hh.clean hh.eof
        have hok := hh.ok
        rw [← g1, ← g9] at hok
        rw [← g1, ← g9] at hm
        cases hcd : s.pull.1.cd with
        | failed => rw [hcd] at hok; exact absurd hok id
        | crashed => rw [hcd] at hok; exact absurd hok id
        | live d =>
          rw [hcd] at hok
          obtain ⟨-, k, d', used, o, ret, e, r1, r2, r3, r4, r5, r6, r7, r8⟩ := hs.step _ _ _ hok s.pull.1.pending.length cap
          have hdrop : (s.pull.1.pending ++ srcBytes s.pull.1.src).drop used = s.pull.1.pending.drop used ++ srcBytes s.pull.1.src := by
            rw [List.take_left] at r2
            exact List.drop_append_of_le_length r2
          rw [List.take_left] at e r2 r3 r6
          rw [hdrop] at r1 r8 r3
          have e1 : ∀ f, k ≤ f → (procOf D f).process s.pull.1.cd s.pull.1.pending cap = (.live d', used, o, ofRet ret) := by
            intro f hf
            show stepOf D f s.pull.1.cd s.pull.1.pending cap = _
            rw [hcd]
            unfold stepOf
            simp only [e f hf]
          obtain ⟨s3, q1, q2, q3, q4, q5, q6, q7, q8, q9, hround⟩ :=
            fed_round (log := log) h0 hag g2 g3 (g5.trans hh.err) hav e1 r2
          have hh3 : HeldT G s3 (out ++ o) :=
            ⟨q6, q7, q8, q9, by rw [q3]; exact g7, by rw [q4, q3]; exact g8, by rw [q1, q2, q3]; exact r1, fun _ => trivial⟩
          have hnf : ofRet ret ≠ .failure := by cases ret <;> simp [ofRet]
          have hsuc : ¬ (ofRet ret = .success ∧ s3.eof = true ∧ s3.avail = 0 ∧ s3.flushed = true) := by
            rintro ⟨-, u2, u3, -⟩
            have hz : s3.pending = [] := List.eq_nil_of_length_eq_zero (by rw [pending_len _ q7]; exact u3)
            have := slot_tail hs hh3.ok
            rw [hz, q3, g8 (by rw [← q4]; exact u2)] at this
            exact ht (List.suffix_nil.1 this)
          by_cases ho : o = []
          · have hh3' := hh3
            rw [ho, List.append_nil] at hh3'
            have hn3 : (if s3.avail = 0 then true else stillNeeds s.pull.2 needs) = true → s3.avail = 0 := by
              intro h
              by_cases hz : s3.avail = 0
              · exact hz
              · rw [if_neg hz, hst] at h; cases h
            have hloop : ∀ f, k ≤ f → ∀ n, Reader.loop (procOf D f) cap (n + 1) s needs log =
                Reader.loop (procOf D f) cap n s3 (if s3.avail = 0 then true else stillNeeds s.pull.2 needs)
                (log ++ s.pull.2.toList ++ [.fed s.pull.1.pending used o (ofRet ret)]) := fun f hf n => by
              rw [hround f hf n, if_neg hnf, if_neg hsuc, if_pos ho]
            have hpos : 0 < s.pull.1.pending.length := by rw [pending_len _ g3]; omega
            cases hr : ret with
            | needsOutput =>
              have := r7 hr
              rw [ho] at this
              simp at this
              omega
            | success =>
              obtain ⟨u1, u2⟩ := r8 hr
              rw [ho, List.append_nil] at u1
              refine Or.inr ⟨u1, fun n => ?_⟩
              cases n with
              | zero => exact ⟨0, fun _ _ => rfl⟩
              | succ n =>
                rw [u1] at hh3'
                obtain ⟨k2, e2⟩ := over_loops hs ht hcap n s3 _ _ hh3' (by rw [q2, q3]; exact u2) hn3
                exact ⟨max k k2, fun f hf => by rw [hloop f (by omega) n]; exact e2 f (by omega)⟩
            | needsInput =>
              have hu := (r6 hr).1
              rcases ihm (srcSize s3.src + 1) s3 _ (log ++ s.pull.2.toList ++ [.fed s.pull.1.pending used o (ofRet ret)]) out (by
                simp only [left, List.length_append] at hm ⊢
                rw [q2, q3, List.length_drop]
                omega) (Nat.lt_succ_self _) hh3' hn3 with ⟨k2, s', log', bs, hb, e2, hres⟩ | ⟨hd, hl⟩
              · refine Or.inl ⟨max k k2 + 1, s', log', bs, hb, fun f hf n hn' => ?_, hres⟩
                obtain ⟨n, rfl⟩ : ∃ n', n = n' + 1 := ⟨n - 1, by omega⟩
                rw [hloop f (by omega) n]
                exact e2 f (by omega) n (by omega)
              · refine Or.inr ⟨hd, fun n => ?_⟩
                cases n with
                | zero => exact ⟨0, fun _ _ => rfl⟩
                | succ n =>
                  obtain ⟨k2, e2⟩ := hl n
                  exact ⟨max k k2, fun f hf => by rw [hloop f (by omega) n]; exact e2 f (by omega)⟩
          · refine Or.inl ⟨k + 1, s3, log ++ s.pull.2.toList ++ [.fed s.pull.1.pending used o (ofRet ret)], o, ho, fun f hf n hn' => ?_, hh3⟩
            obtain ⟨n, rfl⟩ : ∃ n', n = n' + 1 := ⟨n - 1, by omega⟩
            rw [hround f (by omega) n, if_neg hnf, if_neg hsuc, if_neg ho]

/-- Reading on and on. -/
theorem tail_reads (hs : Follows D G data tail) (ht : tail ≠ []) :
    ∀ (caps : List Nat) (s : Reader (Slot δ)) (log : List Entry) (out : List UInt8), (∀ c ∈ caps, 0 < c) →
      HeldT G s out →
      (∃ k s' log' bs, (∀ f, k ≤ f → ∀ n, k ≤ n → readToEnd (procOf D f) n caps s log = some (s', log', bs, .more)) ∧
        caps.length ≤ bs.length ∧ out ++ bs <+: data) ∨
      (∃ j k s' log' bs, j < caps.length ∧
        (∀ f, k ≤ f → ∀ n, k ≤ n → readToEnd (procOf D f) n (caps.take j) s log = some (s', log', bs, .more)) ∧
        out ++ bs = data ∧ ∀ n, ∃ k, ∀ f, k ≤ f → readToEnd (procOf D f) n caps s log = none) := by
  intro caps
  induction caps with
  | nil =>
    intro s log out _ hh
    exact Or.inl ⟨0, s, log, [], fun _ _ _ _ => rfl, Nat.le_refl _, by rw [List.append_nil]; exact slot_pre hs hh.ok⟩
  | cons cap caps ih =>
    intro s log out hpos hh
    rcases tail_read hs ht (hpos cap (by simp)) _ _ s false log out (Nat.le_refl _) (Nat.lt_succ_self _) hh (fun h => by cases h) with
      ⟨k, s', log', bs, hb, e, hh'⟩ | ⟨hd, hl⟩
    · cases bs with
      | nil => exact absurd rfl hb
      | cons b bs =>
        have e' : ∀ f, k ≤ f → ∀ n, k ≤ n → s.read (procOf D f) n cap log = some (s', log', .ok (b :: bs)) := e
        rcases ih s' log' (out ++ (b :: bs)) (fun c hc => hpos c (by simp [hc])) hh' with
          ⟨k2, s2, log2, bs2, e2, hl2, hp2⟩ | ⟨j, k2, s2, log2, bs2, hj, e2, hp2, hl2⟩
        · refine Or.inl ⟨max k k2, s2, log2, (b :: bs) ++ bs2, fun f hf n hn => ?_, ?_, by rw [← List.append_assoc]; exact hp2⟩
          · rw [readToEnd, e' f (by omega) n (by omega)]
            simp only
            rw [e2 f (by omega) n (by omega)]
            rfl
          · rw [List.length_append, List.length_cons, List.length_cons]
            omega
        · refine Or.inr ⟨j + 1, max k k2, s2, log2, (b :: bs) ++ bs2, by rw [List.length_cons]; omega, fun f hf n hn => ?_,
            by rw [← List.append_assoc]; exact hp2, fun n => ?_⟩
          · rw [List.take_succ_cons, readToEnd, e' f (by omega) n (by omega)]
            simp only
            rw [e2 f (by omega) n (by omega)]
            rfl
          · obtain ⟨k3, e3⟩ := hl2 n
            refine ⟨max k k3, fun f hf => ?_⟩
            rw [readToEnd]
            cases hx : s.read (procOf D f) n cap log with
            | none => rfl
            | some x =>
              have h1 := loop_mono _ _ _ _ _ _ _ hx (max n k) (Nat.le_max_left _ _)
              have h2 := e f (by omega) (max n k) (Nat.le_max_right _ _)
              rw [h1] at h2
              simp only [Option.some.injEq] at h2
              rw [h2]
              simp only
              rw [e3 f (by omega)]
              rfl
    · refine Or.inr ⟨0, 0, s, log, [], by simp, fun _ _ _ _ => rfl, by rw [List.append_nil]; exact hd, fun n => ?_⟩
      obtain ⟨k, e⟩ := hl n
      refine ⟨k, fun f hf => ?_⟩
      have : s.read (procOf D f) n cap log = none := e f hf
      rw [readToEnd, this]

/-! ## In the command line program -/

/-- Fed a file with anything behind it, or a beginning of a file. -/
theorem unpackLoop_ok (hs : Follows D G data tail) (hm : missing = [] ∨ tail = []) {cap size : Nat} (hc : 0 < cap) (hz : 0 < size) :
    ∀ (m : Nat) (s : Unpack δ) (total : List UInt8),
      2 * (srcBytes s.src).length + s.left.length + 2 * (data.length - total.length) + s.out.length = m →
      G s.dec (s.left ++ srcBytes s.src ++ missing) total → total = s.written ++ s.out →
      total <+: data → Whole s.src → s.out.length ≤ size →
      ∃ f0 s' e, (∀ n k, f0 ≤ n → f0 ≤ k → unpackLoop D n cap size k s = some (s', e)) ∧
        (e = .ok ∧ missing = [] ∧ s'.written = data ∨ e = .noEnd ∧ missing ≠ [] ∧ s'.written <+: data ∨
          e = .ioErr ∧ s'.written <+: data ∧ (.fail ∈ s.src ∨ .fail ∈ s.sink)) := by
  intro m
  induction m using Nat.strong_induction_on with
  | _ m ih =>
    intro s total hme hr ht hpre hw hso
    obtain ⟨-, k1, d', used, o, ret, e, hr', hu, -, hl, hp, hin, hout, hsu⟩ := hs.step _ _ _ hr s.left.length (size - s.out.length)
    have htake : (s.left ++ srcBytes s.src ++ missing).take s.left.length = s.left := by
      rw [List.append_assoc, List.take_left]
    rw [htake] at e hu hin
    have hdrop : (s.left ++ srcBytes s.src ++ missing).drop used = s.left.drop used ++ srcBytes s.src ++ missing := by
      rw [List.append_assoc, List.drop_append_of_le_length hu, List.append_assoc]
    rw [hdrop] at hr' hsu
    have hple := hp.length_le
    rw [List.length_append] at hple
    obtain ⟨d1, d2, d3⟩ := drain_spec s.sink (s.out ++ o)
    have hwr : s.written ++ (Cli.drain s.sink (s.out ++ o)).2.1 <+: data := by
      obtain ⟨u, hu1⟩ := d1
      refine List.IsPrefix.trans ⟨u, ?_⟩ hp
      rw [List.append_assoc, hu1, ht, List.append_assoc]
    cases hret : ret with
    | success =>
      obtain ⟨g1, g2⟩ := hsu hret
      have hmiss : missing = [] := by
        rcases hm with h | h
        · exact h
        · rw [h] at g2
          exact (List.append_eq_nil_iff.1 g2).2
      rcases d3 with ⟨d3, d4⟩ | ⟨d3, d4⟩
      · refine ⟨k1 + 1, ((Unpack.flushed ⟨d', s.left.drop used, s.last, s.out ++ o, s.src, s.sink, s.written⟩).1), .ok, fun n k hn hk => ?_, .inl ⟨rfl, hmiss, ?_⟩⟩
        · obtain ⟨k, rfl⟩ : ∃ j, k = j + 1 := ⟨k - 1, by omega⟩
          rw [unpackLoop, e n (by omega)]
          simp only [hret, Unpack.flushed, d3, if_true]
        · simp only [Unpack.flushed, d4]
          rw [← g1, ht, List.append_assoc]
      · refine ⟨k1 + 1, ((Unpack.flushed ⟨d', s.left.drop used, s.last, s.out ++ o, s.src, s.sink, s.written⟩).1), .ioErr, fun n k hn hk => ?_, .inr (.inr ⟨rfl, ?_, .inr d4⟩)⟩
        · obtain ⟨k, rfl⟩ : ∃ j, k = j + 1 := ⟨k - 1, by omega⟩
          rw [unpackLoop, e n (by omega)]
          simp only [hret, Unpack.flushed, d3, Bool.false_eq_true, if_false]
        · exact hwr
    | needsOutput =>
      have g1 := hout hret
      rcases d3 with ⟨d3, d4⟩ | ⟨d3, d4⟩
      · obtain ⟨f2, s', e', l1, l2⟩ := ih _ (by
            rw [← hme]
            show 2 * (srcBytes s.src).length + (s.left.drop used).length + 2 * (data.length - (total ++ o).length) + 0 < _
            rw [List.length_append, List.length_drop]
            omega)
          (Unpack.flushed ⟨d', s.left.drop used, s.last, s.out ++ o, s.src, s.sink, s.written⟩).1
          (total ++ o) rfl hr' (by simp only [Unpack.flushed, d4, ht, List.append_nil, List.append_assoc]) hp hw
          (Nat.zero_le _)
        refine ⟨max k1 f2 + 1, s', e', fun n k hn hk => ?_, ?_⟩
        · obtain ⟨k, rfl⟩ : ∃ j, k = j + 1 := ⟨k - 1, by omega⟩
          rw [unpackLoop, e n (by omega)]
          simp only [hret]
          rw [if_pos (by exact d3)]
          exact l1 n k (by omega) (by omega)
        · rcases l2 with l2 | l2 | ⟨l2, l3, l4⟩
          · exact .inl l2
          · exact .inr (.inl l2)
          · refine .inr (.inr ⟨l2, l3, ?_⟩)
            rcases l4 with l4 | l4
            · exact .inl l4
            · exact .inr (d2 _ l4)
      · refine ⟨k1 + 1, ((Unpack.flushed ⟨d', s.left.drop used, s.last, s.out ++ o, s.src, s.sink, s.written⟩).1), .ioErr, fun n k hn hk => ?_, .inr (.inr ⟨rfl, ?_, .inr d4⟩)⟩
        · obtain ⟨k, rfl⟩ : ∃ j, k = j + 1 := ⟨k - 1, by omega⟩
          rw [unpackLoop, e n (by omega)]
          simp only [hret, Unpack.flushed, d3, Bool.false_eq_true, if_false]
        · exact hwr
    | needsInput =>
      obtain ⟨g1, g2⟩ := hin hret
      have hleft : s.left.drop used = [] := by rw [g1, List.drop_length]
      have hwp : s.written <+: data := by rw [ht] at hpre; exact (List.prefix_append _ _).trans hpre
      obtain ⟨src', q1, q2, q3⟩ := fill_spec (place := cap - 0) (by omega) s.src hw
      rw [hleft, List.nil_append] at hr'
      rcases q3 with ⟨bs, q3, q4, q5, q6⟩ | ⟨q3, q4⟩ | ⟨q3, q4⟩
      · have hpos := List.length_pos_iff.2 q4
        obtain ⟨f2, s', e', l1, l2⟩ := ih _ (by
            rw [← hme, q6]
            show 2 * (srcBytes src').length + bs.length + 2 * (data.length - (total ++ o).length) + (s.out ++ o).length < _
            rw [List.length_append, List.length_append, List.length_append]
            omega)
          ⟨d', bs, bs.length, s.out ++ o, src', s.sink, s.written⟩
          (total ++ o) rfl (by rw [q6] at hr'; exact hr') (by rw [ht, List.append_assoc]) hp q2
          (by show (s.out ++ o).length ≤ size; rw [List.length_append]; omega)
        refine ⟨max k1 f2 + 1, s', e', fun n k hn hk => ?_, ?_⟩
        · obtain ⟨k, rfl⟩ : ∃ j, k = j + 1 := ⟨k - 1, by omega⟩
          rw [unpackLoop, e n (by omega)]
          simp only [hret, hleft, if_true, q3, List.nil_append, Nat.zero_add]
          exact l1 n k (by omega) (by omega)
        · rcases l2 with l2 | l2 | ⟨l2, l3, l4⟩
          · exact .inl l2
          · exact .inr (.inl l2)
          · refine .inr (.inr ⟨l2, l3, ?_⟩)
            rcases l4 with l4 | l4
            · exact .inl (q1 _ l4 rfl)
            · exact .inr l4
      · have hmiss : missing ≠ [] := by
          intro h0
          rw [List.append_assoc, List.drop_left, q4, h0] at g2
          exact Nat.not_lt_zero _ g2
        refine ⟨k1 + 1, (⟨d', s.left.drop used, s.last, s.out ++ o, src', s.sink, s.written⟩), .noEnd, fun n k hn hk => ?_, .inr (.inl ⟨rfl, hmiss, ?_⟩)⟩
        · obtain ⟨k, rfl⟩ : ∃ j, k = j + 1 := ⟨k - 1, by omega⟩
          rw [unpackLoop, e n (by omega)]
          simp only [hret, hleft, if_true, q3]
        · exact hwp
      · refine ⟨k1 + 1, (⟨d', s.left.drop used, s.last, s.out ++ o, src', s.sink, s.written⟩), .ioErr, fun n k hn hk => ?_, .inr (.inr ⟨rfl, ?_, .inl q4⟩)⟩
        · obtain ⟨k, rfl⟩ : ∃ j, k = j + 1 := ⟨k - 1, by omega⟩
          rw [unpackLoop, e n (by omega)]
          simp only [hret, hleft, if_true, q3]
        · exact hwp

/-! ## In the C interface -/

theorem decodeLoop_ok (hs : Follows D G data tail) : ∀ (n : Nat) {d : δ} {rest out : List UInt8},
    G d rest out → out <+: data → data.length - out.length = n →
    ∀ buf : List UInt8, buf ≠ [] →
    ∃ f0, ∀ fuel k, f0 ≤ fuel → f0 ≤ k → decodeLoop D fuel k buf (.live d) rest = some (data.drop out.length, 0) := by
  intro n
  induction n using Nat.strong_induction_on with
  | _ n ih =>
    intro d rest out hr hpre hn buf hb
    obtain ⟨-, k1, d', used, o, ret, e, hr', hu, -, hl, hp, hin, hout, hsu⟩ := hs.step _ _ _ hr rest.length buf.length
    rw [List.take_length] at e
    have hdec : ∀ fuel, k1 ≤ fuel → cDecode D fuel (some (.live d)) rest (some 0) buf (some 0) =
        some ⟨some (.live d'), some used, Ffi.stored buf 0 o, some o.length, Ffi.dret ret⟩ := by
      intro fuel hfu
      unfold cDecode
      simp only [List.drop_zero, Nat.sub_zero]
      rw [if_pos ⟨Nat.zero_le _, Nat.zero_le _⟩, e fuel hfu]
      simp only [Nat.zero_add]
    cases hret : ret with
    | needsInput =>
      obtain ⟨-, h2⟩ := hin hret
      rw [List.drop_length, List.length_nil] at h2
      omega
    | success =>
      obtain ⟨h1, -⟩ := hsu hret
      refine ⟨k1 + 1, fun fuel k hfu hk => ?_⟩
      obtain ⟨k, rfl⟩ : ∃ j, k = j + 1 := ⟨k - 1, by omega⟩
      rw [decodeLoop, hdec fuel (by omega)]
      simp only [hret, Ffi.dret, Ffi.stored_front]
      rw [if_neg (by simp), if_pos trivial, ← h1, List.drop_left]
    | needsOutput =>
      have h1 := hout hret
      have hb1 := List.length_pos_iff.2 hb
      have hle := hp.length_le
      rw [List.length_append] at hle
      have hb' : Ffi.stored buf 0 o ≠ [] := by
        intro e
        have := congrArg List.length e
        rw [Ffi.stored_length (by omega), List.length_nil] at this
        omega
      obtain ⟨f2, l1⟩ := ih (data.length - (out ++ o).length) (by rw [List.length_append]; omega) hr' hp rfl
        (Ffi.stored buf 0 o) hb'
      refine ⟨max k1 f2 + 1, fun fuel k hfu hk => ?_⟩
      obtain ⟨k, rfl⟩ : ∃ j, k = j + 1 := ⟨k - 1, by omega⟩
      rw [decodeLoop, hdec fuel (by omega)]
      simp only [hret, Ffi.dret, Ffi.stored_front]
      rw [if_neg (by simp), if_neg (by decide), l1 fuel k (by omega) (by omega)]
      obtain ⟨t, ht⟩ := hp
      simp only [Option.map_some, ← ht, List.append_assoc, List.drop_left, Option.some.injEq, Prod.mk.injEq, and_true]
      rw [← List.append_assoc, List.drop_left]

end Divans.Par
