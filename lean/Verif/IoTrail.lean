import Verif.IoDec

/-!
# A file followed by other bytes, read through the decompressor's reader
-/

namespace Divans.Io
open Divans.Call

section
variable {σ : Type} {p : Nat → Proc σ}

/-- A round of the loop of `read` in which the codec is fed. -/
theorem fed_round {cap : Nat} {s : Reader σ} {needs : Bool} {log : List Entry}
    (h0 : ¬ (needs = true ∧ s.eof = true)) (hag : s.pull.2 ≠ some .again) (g2 : s.pull.1.off ≤ s.pull.1.len)
    (g3 : s.pull.1.len ≤ s.pull.1.buf.length) (herr : s.pull.1.err = false) (hav : s.pull.1.avail ≠ 0)
    {k : Nat} {c' : σ} {n0 : Nat} {o : List UInt8} {r : Res}
    (e1 : ∀ f, k ≤ f → (p f).process s.pull.1.cd s.pull.1.pending cap = (c', n0, o, r))
    (e2 : n0 ≤ s.pull.1.pending.length) :
    ∃ s3 : Reader σ, s3.cd = c' ∧ s3.pending = s.pull.1.pending.drop n0 ∧ s3.src = s.pull.1.src ∧ s3.eof = s.pull.1.eof ∧
      s3.avail = s.pull.1.avail - n0 ∧ s3.off ≤ s3.len ∧ s3.len ≤ s3.buf.length ∧ (s3.avail = 0 → s3.len < s3.buf.length) ∧
      s3.err = false ∧
      ∀ f, k ≤ f → ∀ n, Reader.loop (p f) cap (n + 1) s needs log =
          if r = .failure then some (s3, log ++ s.pull.2.toList ++ [.fed s.pull.1.pending n0 o r], .codecErr)
          else if r = .success ∧ s3.eof = true ∧ s3.avail = 0 ∧ s3.flushed = true then
            some (s3, log ++ s.pull.2.toList ++ [.fed s.pull.1.pending n0 o r], .ok o)
          else if o = [] then Reader.loop (p f) cap n s3 (if s3.avail = 0 then true else stillNeeds s.pull.2 needs)
            (log ++ s.pull.2.toList ++ [.fed s.pull.1.pending n0 o r])
          else some (s3, log ++ s.pull.2.toList ++ [.fed s.pull.1.pending n0 o r], .ok o) := by
  obtain ⟨s2, hs2⟩ : ∃ s2 : Reader σ, s2 = { s.pull.1 with cd := c', off := s.pull.1.off + n0 } := ⟨_, rfl⟩
  have hcall : ∀ f, k ≤ f → s.pull.1.call (p f) cap = (s2, .fed s.pull.1.pending n0 o r, o, r) := by
    intro f hf
    unfold Reader.call
    rw [if_neg hav, e1 f hf, hs2]
  rw [pending_len _ g3] at e2
  have e2' : n0 ≤ s.pull.1.len - s.pull.1.off := e2
  have hlen : 0 < s.pull.1.len - s.pull.1.off := Nat.pos_of_ne_zero hav
  have w1 : s2.avail = s.pull.1.avail - n0 := by rw [hs2]; simp only [Reader.avail]; omega
  have v2 : s2.err = false := by rw [hs2]; exact herr
  have v3 : s2.src = s.pull.1.src := by rw [hs2]
  have v4 : s2.cd = c' := by rw [hs2]
  have v5 : s2.off ≤ s2.len := by
    rw [hs2]
    show s.pull.1.off + n0 ≤ s.pull.1.len
    omega
  have v6 : s2.len ≤ s2.buf.length := by rw [hs2]; exact g3
  have v7 : 0 < s2.buf.length := by
    rw [hs2]
    show 0 < s.pull.1.buf.length
    omega
  have v8 : s2.pending = s.pull.1.pending.drop n0 := by
    rw [hs2]; simp only [Reader.pending, List.drop_drop]
  have v9 : s2.eof = s.pull.1.eof := by rw [hs2]
  obtain ⟨s3, hs3⟩ : ∃ s3, s3 = (if s2.avail = 0 then s2.front else s2) := ⟨_, rfl⟩
  have hfront : s3.cd = s2.cd ∧ s3.pending = s2.pending ∧ s3.src = s2.src ∧ s3.eof = s2.eof ∧ s3.avail = s2.avail ∧
      s3.off ≤ s3.len ∧ s3.len ≤ s3.buf.length ∧ (s3.avail = 0 → s3.len < s3.buf.length) ∧ s3.err = s2.err := by
    by_cases hz : s2.avail = 0
    · obtain ⟨f1, f2, f3, f4, f5, f6, f7, f8, f9, f10, f11⟩ := front_held s2 v5 v6 v7 hz
      rw [hs3, if_pos hz]
      refine ⟨f1, ?_, f7, f8, f10.trans hz.symm, f2, f3, fun _ => f11, f5⟩
      rw [f9]
      exact (List.eq_nil_of_length_eq_zero (by rw [pending_len _ v6]; exact hz)).symm
    · rw [hs3, if_neg hz]; exact ⟨rfl, rfl, rfl, rfl, rfl, v5, v6, fun h => absurd h hz, rfl⟩
  obtain ⟨f1, f2, f3, f4, f5, f6, f7, f8, f9⟩ := hfront
  refine ⟨s3, f1.trans v4, f2.trans v8, f3.trans v3, f4.trans v9, f5.trans w1, f6, f7, f8, f9.trans v2, ?_⟩
  intro f hf n
  rw [loop_round (p f) cap n s needs log h0 hag, hcall f hf]
  unfold after
  simp only
  rw [if_neg (by rw [v2]; simp), ← hs3, f5]

/-- More rounds do not change the result. -/
theorem loop_mono (q : Proc σ) (cap : Nat) : ∀ (n : Nat) (s : Reader σ) (needs : Bool) (log : List Entry)
    (x : Reader σ × List Entry × Got), s.loop q cap n needs log = some x → ∀ m, n ≤ m → s.loop q cap m needs log = some x := by
  intro n
  induction n with
  | zero => intro s needs log x h; cases h
  | succ n ih =>
    intro s needs log x h m hm
    obtain ⟨m, rfl⟩ : ∃ m', m = m' + 1 := ⟨m - 1, by omega⟩
    by_cases h0 : needs = true ∧ s.eof = true
    · rw [Reader.loop.eq_def] at h ⊢
      simp only at h ⊢
      rw [if_pos h0] at h ⊢
      exact h
    by_cases hag : s.pull.2 = some .again
    · rw [loop_again q cap _ s needs log h0 hag] at h ⊢
      exact ih _ _ _ _ h m (by omega)
    · rw [loop_round q cap _ s needs log h0 hag] at h ⊢
      unfold after at h ⊢
      simp only at h ⊢
      by_cases h1 : (s.pull.1.call q cap).1.avail = 0 ∧ (s.pull.1.call q cap).1.err = true
      · rw [if_pos h1] at h ⊢; exact h
      rw [if_neg h1] at h ⊢
      by_cases h2 : (s.pull.1.call q cap).2.2.2 = .failure
      · rw [if_pos h2] at h ⊢; exact h
      rw [if_neg h2] at h ⊢
      by_cases h3 : (s.pull.1.call q cap).2.2.1 = []
      · rw [if_pos h3] at h ⊢
        generalize (if (s.pull.1.call q cap).1.avail = 0 then (s.pull.1.call q cap).1.front else (s.pull.1.call q cap).1) = s3 at h ⊢
        by_cases h4 : (s.pull.1.call q cap).2.2.2 = .success ∧ s3.eof = true ∧ (s.pull.1.call q cap).1.avail = 0 ∧ s3.flushed = true
        · rw [if_pos h4] at h ⊢; exact h
        · rw [if_neg h4] at h ⊢
          exact ih _ _ _ _ h m (by omega)
      · rw [if_neg h3] at h ⊢; exact h

end

variable {dw : Nat → Nat → Nat → List UInt8} {file data tail : List UInt8} {skip : Bool}

/-- The reader, with bytes behind the file still to come. -/
abbrev HeldT (dw : Nat → Nat → Nat → List UInt8) (skip : Bool) (whole : List UInt8) :=
  Held (Reached dw skip whole) (fun _ => True)

theorem reached_tail (hs : Serves dw file data) {c : Slot Dec} {rest out : List UInt8}
    (h : Reached dw skip (file ++ tail) c rest out) : tail <:+ rest := by
  cases c with
  | live d => exact (reached_step hs h 0 0).1
  | failed => exact absurd h id
  | crashed => exact absurd h id

/-- One round: the source is asked, and something is there for the codec. -/
theorem pull_tail (hs : Serves dw file data) (ht : tail ≠ []) {s : Reader (Slot Dec)} {out : List UInt8} {needs : Bool}
    (hh : HeldT dw skip (file ++ tail) s out) (hn : needs = true → s.avail = 0) :
    ¬ (needs = true ∧ s.eof = true) ∧
    (s.pull.2 = some .again ∧ HeldT dw skip (file ++ tail) s.pull.1 out ∧ (needs = true → s.pull.1.avail = 0) ∧
        (s.pull.1.cd, s.pull.1.pending ++ srcBytes s.pull.1.src) = (s.cd, s.pending ++ srcBytes s.src) ∧
        srcSize s.pull.1.src < srcSize s.src ∨
      s.pull.2 ≠ some .again ∧ s.pull.1.avail ≠ 0 ∧ (stillNeeds s.pull.2 needs = false)) := by
  obtain ⟨g1, g2, g3, g4, g5, g6, g7, g8, g9, g10, g11⟩ := pull_got s hh.off hh.len hh.clean hh.eof
  have hne : s.pending ++ srcBytes s.src ≠ [] := fun h0 => by
    have := reached_tail hs hh.ok
    rw [h0] at this
    exact ht (List.suffix_nil.1 this)
  have key : ∀ t : Reader (Slot Dec), t.len ≤ t.buf.length → t.avail = 0 → t.src = [] → t.pending ++ srcBytes t.src = [] := by
    intro t q1 q2 q3
    have : t.pending = [] := List.eq_nil_of_length_eq_zero (by rw [pending_len _ q1]; exact q2)
    rw [this, q3]
    rfl
  have h0 : ¬ (needs = true ∧ s.eof = true) := fun h => hne (key s hh.len (hn h.1) (hh.eof h.2))
  refine ⟨h0, ?_⟩
  rcases g11 with h | h | h | h
  · right
    have hav : s.avail ≠ 0 := fun h1 => by
      rcases h.2.2 with h2 | h2
      · have := hh.place h1
        omega
      · exact hne (key s hh.len h1 (hh.eof h2))
    refine ⟨by rw [h.1]; simp, by rw [h.2.1]; exact hav, ?_⟩
    rw [h.1]
    cases hnd : needs with
    | false => rfl
    | true => exact absurd (hn hnd) hav
  · right
    have hav : s.avail ≠ 0 := fun h1 => by
      have := key s.pull.1 g3 (by rw [h.2.2.2]; exact h1) (g8 h.2.1)
      rw [g9] at this
      exact hne this
    refine ⟨by rw [h.1]; simp, by rw [h.2.2.2]; exact hav, ?_⟩
    rw [h.1]
    cases hnd : needs with
    | false => rfl
    | true => exact absurd (hn hnd) hav
  · left
    obtain ⟨h1, a1, a2, a3, a4⟩ := h
    refine ⟨h1, ?_, fun hnd => by rw [a1]; exact hn hnd, by rw [g1, g9], a4⟩
    refine ⟨g2, g3, fun h1 => ?_, g5.trans hh.err, g7, g8, by rw [g1, g9]; exact hh.ok, fun _ => trivial⟩
    rw [a3, g4]; exact hh.place (by rw [← a1]; exact h1)
  · right
    obtain ⟨⟨bs, hb⟩, _, _, h4, _⟩ := h
    refine ⟨by rw [hb]; simp, by omega, by rw [hb]; rfl⟩

/-- After the end of the file the loop of `read` goes round and round. -/
theorem over_loops (hs : Serves dw file data) (ht : tail ≠ []) {cap : Nat} (hcap : 0 < cap) :
    ∀ (n : Nat) (s : Reader (Slot Dec)) (needs : Bool) (log : List Entry), HeldT dw skip (file ++ tail) s data →
      s.pending ++ srcBytes s.src = tail → (needs = true → s.avail = 0) →
      ∃ k, ∀ f, k ≤ f → s.loop (decProc dw f) cap n needs log = none := by
  intro n
  induction n with
  | zero => intro s needs log _ _ _; exact ⟨0, fun _ _ => rfl⟩
  | succ n ih =>
    intro s needs log hh hrest hn
    obtain ⟨h0, h1 | ⟨hag, hav, hst⟩⟩ := pull_tail hs ht hh hn
    · obtain ⟨h1, h2, h3, h4, -⟩ := h1
      obtain ⟨k, e⟩ := ih s.pull.1 needs (log ++ [.again]) h2 (by rw [(Prod.mk.inj h4).2]; exact hrest) h3
      exact ⟨k, fun f hf => by rw [loop_again _ cap n s needs log h0 h1]; exact e f hf⟩
    · obtain ⟨g1, g2, g3, g4, g5, g6, g7, g8, g9, g10, -⟩ := pull_got s hh.off hh.len hh.clean hh.eof
      have hok := hh.ok
      rw [← g1, ← g9] at hok
      rw [← g9] at hrest
      cases hcd : s.pull.1.cd with
      | failed => rw [hcd] at hok; exact absurd hok id
      | crashed => rw [hcd] at hok; exact absurd hok id
      | live d =>
        rw [hcd] at hok
        obtain ⟨-, k, r, e, r1, r2, r3, r4, r5, r6, r7, r8⟩ := reached_step hs hok s.pull.1.pending.length cap
        rw [List.take_left] at e r2 r3 r6
        have hout : r.out = [] := by
          have := r5.length_le
          rw [List.length_append] at this
          exact List.eq_nil_of_length_eq_zero (by omega)
        have hdrop : ∀ m, (s.pull.1.pending ++ srcBytes s.pull.1.src).drop m = tail → m ≤ s.pull.1.pending.length → m = 0 := by
          intro m hm hle
          have := congrArg List.length hm
          rw [List.length_drop, hrest] at this
          have := congrArg List.length hrest
          rw [List.length_append] at this
          have : 0 < s.pull.1.pending.length := by rw [pending_len _ g3]; omega
          omega
        have hret : r.ret = .success := by
          cases hr : r.ret with
          | success => rfl
          | needsInput =>
            have := (r6 hr).2
            rw [List.drop_left] at this
            have := congrArg List.length hrest
            rw [List.length_append] at this
            omega
          | needsOutput =>
            have := r7 hr
            rw [hout] at this
            simp at this
            omega
        have hused : r.used = 0 := hdrop r.used (r8 hret).2 r2
        have e1 : ∀ f, k ≤ f → (decProc dw f).process s.pull.1.cd s.pull.1.pending cap = (.live r.dec, 0, [], .success) := by
          intro f hf
          show decStep dw f s.pull.1.cd s.pull.1.pending cap = _
          rw [hcd]
          unfold decStep
          simp only [e f hf, hused, hout, hret, ofRet]
        obtain ⟨s3, q1, q2, q3, q4, q5, q6, q7, q8, q9, hround⟩ :=
          fed_round (log := log) h0 hag g2 g3 (g5.trans hh.err) hav e1 (Nat.zero_le _)
        rw [Nat.sub_zero] at q5
        rw [List.drop_zero] at q2
        rw [hused, List.drop_zero, hout, List.append_nil] at r1
        have hh3 : HeldT dw skip (file ++ tail) s3 data :=
          ⟨q6, q7, q8, q9, by rw [q3]; exact g7, by rw [q4, q3]; exact g8, by rw [q1, q2, q3]; exact r1, fun _ => trivial⟩
        obtain ⟨k2, e2⟩ := ih s3 false (log ++ s.pull.2.toList ++ [.fed s.pull.1.pending 0 [] .success]) hh3 (by rw [q2, q3]; exact hrest)
          (fun h => by cases h)
        refine ⟨max k k2, fun f hf => ?_⟩
        rw [hround f (by omega) n, if_neg (by simp), if_neg (by rw [q5]; exact fun h => hav h.2.2.1), if_pos rfl,
          if_neg (by rw [q5]; exact hav), hst]
        exact e2 f (by omega)

/-- One `read`: it returns further bytes of the data, or goes round and round after the last of them. -/
theorem tail_read (hs : Serves dw file data) (ht : tail ≠ []) {cap : Nat} (hcap : 0 < cap) :
    ∀ (m m2 : Nat) (s : Reader (Slot Dec)) (needs : Bool) (log : List Entry) (out : List UInt8),
      left data (s.cd, s.pending ++ srcBytes s.src, out) ≤ m → srcSize s.src < m2 → HeldT dw skip (file ++ tail) s out →
      (needs = true → s.avail = 0) →
      (∃ k s' log' bs, bs ≠ [] ∧ (∀ f, k ≤ f → ∀ n, k ≤ n → s.loop (decProc dw f) cap n needs log = some (s', log', .ok bs)) ∧
        HeldT dw skip (file ++ tail) s' (out ++ bs)) ∨
      (out = data ∧ ∀ n, ∃ k, ∀ f, k ≤ f → s.loop (decProc dw f) cap n needs log = none) := by
  intro m
  induction m with
  | zero =>
    intro m2 s needs log out hm _ hh _
    have := (reached_tail hs hh.ok).length_le
    have : 0 < tail.length := List.length_pos_iff.2 ht
    simp only [left] at hm
    omega
  | succ m ihm =>
    intro m2
    induction m2 with
    | zero => intro s needs log out _ h; omega
    | succ m2 ih2 =>
      intro s needs log out hm hm2 hh hn
      obtain ⟨h0, h1 | ⟨hag, hav, hst⟩⟩ := pull_tail hs ht hh hn
      · obtain ⟨h1, h2, h3, h4, h5⟩ := h1
        rcases ih2 s.pull.1 needs (log ++ [.again]) out (by
          have := hm
          simp only [left] at this ⊢
          rw [(Prod.mk.inj h4).2]
          exact this) (by omega) h2 h3 with ⟨k, s', log', bs, hb, e, hr⟩ | ⟨hd, hl⟩
        · refine Or.inl ⟨k + 1, s', log', bs, hb, fun f hf n hn' => ?_, hr⟩
          obtain ⟨n, rfl⟩ : ∃ n', n = n' + 1 := ⟨n - 1, by omega⟩
          rw [loop_again _ cap n s needs log h0 h1]
          exact e f (by omega) n (by omega)
        · refine Or.inr ⟨hd, fun n => ?_⟩
          cases n with
          | zero => exact ⟨0, fun _ _ => rfl⟩
          | succ n =>
            obtain ⟨k, e⟩ := hl n
            exact ⟨k, fun f hf => by rw [loop_again _ cap n s needs log h0 h1]; exact e f hf⟩
      · obtain ⟨g1, g2, g3, g4, g5, g6, g7, g8, g9, g10, -⟩ := pull_got s hh.off hh.len hh.clean hh.eof
        have hok := hh.ok
        rw [← g1, ← g9] at hok
        rw [← g1, ← g9] at hm
        cases hcd : s.pull.1.cd with
        | failed => rw [hcd] at hok; exact absurd hok id
        | crashed => rw [hcd] at hok; exact absurd hok id
        | live d =>
          rw [hcd] at hok
          obtain ⟨-, k, r, e, r1, r2, r3, r4, r5, r6, r7, r8⟩ := reached_step hs hok s.pull.1.pending.length cap
          have hdrop : (s.pull.1.pending ++ srcBytes s.pull.1.src).drop r.used = s.pull.1.pending.drop r.used ++ srcBytes s.pull.1.src := by
            rw [List.take_left] at r2
            exact List.drop_append_of_le_length r2
          rw [List.take_left] at e r2 r3 r6
          rw [hdrop] at r1 r8 r3
          have e1 : ∀ f, k ≤ f → (decProc dw f).process s.pull.1.cd s.pull.1.pending cap = (.live r.dec, r.used, r.out, ofRet r.ret) := by
            intro f hf
            show decStep dw f s.pull.1.cd s.pull.1.pending cap = _
            rw [hcd]
            unfold decStep
            simp only [e f hf]
          obtain ⟨s3, q1, q2, q3, q4, q5, q6, q7, q8, q9, hround⟩ :=
            fed_round (log := log) h0 hag g2 g3 (g5.trans hh.err) hav e1 r2
          have hh3 : HeldT dw skip (file ++ tail) s3 (out ++ r.out) :=
            ⟨q6, q7, q8, q9, by rw [q3]; exact g7, by rw [q4, q3]; exact g8, by rw [q1, q2, q3]; exact r1, fun _ => trivial⟩
          have hnf : ofRet r.ret ≠ .failure := by cases r.ret <;> simp [ofRet]
          have hsuc : ¬ (ofRet r.ret = .success ∧ s3.eof = true ∧ s3.avail = 0 ∧ s3.flushed = true) := by
            rintro ⟨-, u2, u3, -⟩
            have hz : s3.pending = [] := List.eq_nil_of_length_eq_zero (by rw [pending_len _ q7]; exact u3)
            have := reached_tail hs hh3.ok
            rw [hz, q3, g8 (by rw [← q4]; exact u2)] at this
            exact ht (List.suffix_nil.1 this)
          by_cases ho : r.out = []
          · have hh3' := hh3
            rw [ho, List.append_nil] at hh3'
            have hn3 : (if s3.avail = 0 then true else stillNeeds s.pull.2 needs) = true → s3.avail = 0 := by
              intro h
              by_cases hz : s3.avail = 0
              · exact hz
              · rw [if_neg hz, hst] at h; cases h
            have hloop : ∀ f, k ≤ f → ∀ n, Reader.loop (decProc dw f) cap (n + 1) s needs log =
                Reader.loop (decProc dw f) cap n s3 (if s3.avail = 0 then true else stillNeeds s.pull.2 needs)
                (log ++ s.pull.2.toList ++ [.fed s.pull.1.pending r.used r.out (ofRet r.ret)]) := fun f hf n => by
              rw [hround f hf n, if_neg hnf, if_neg hsuc, if_pos ho]
            have hpos : 0 < s.pull.1.pending.length := by rw [pending_len _ g3]; omega
            cases hr : r.ret with
            | needsOutput =>
              have := r7 hr
              rw [ho] at this
              simp at this
              omega
            | success =>
              obtain ⟨u1, u2⟩ := r8 hr
              rw [ho, List.append_nil] at u1
              refine Or.inr ⟨u1, fun n => ?_⟩
              cases n with
              | zero => exact ⟨0, fun _ _ => rfl⟩
              | succ n =>
                rw [u1] at hh3'
                obtain ⟨k2, e2⟩ := over_loops hs ht hcap n s3 _ _ hh3' (by rw [q2, q3]; exact u2) hn3
                exact ⟨max k k2, fun f hf => by rw [hloop f (by omega) n]; exact e2 f (by omega)⟩
            | needsInput =>
              have hu := (r6 hr).1
              rcases ihm (srcSize s3.src + 1) s3 _ (log ++ s.pull.2.toList ++ [.fed s.pull.1.pending r.used r.out (ofRet r.ret)]) out (by
                simp only [left, List.length_append] at hm ⊢
                rw [q2, q3, List.length_drop]
                omega) (Nat.lt_succ_self _) hh3' hn3 with ⟨k2, s', log', bs, hb, e2, hres⟩ | ⟨hd, hl⟩
              · refine Or.inl ⟨max k k2 + 1, s', log', bs, hb, fun f hf n hn' => ?_, hres⟩
                obtain ⟨n, rfl⟩ : ∃ n', n = n' + 1 := ⟨n - 1, by omega⟩
                rw [hloop f (by omega) n]
                exact e2 f (by omega) n (by omega)
              · refine Or.inr ⟨hd, fun n => ?_⟩
                cases n with
                | zero => exact ⟨0, fun _ _ => rfl⟩
                | succ n =>
                  obtain ⟨k2, e2⟩ := hl n
                  exact ⟨max k k2, fun f hf => by rw [hloop f (by omega) n]; exact e2 f (by omega)⟩
          · refine Or.inl ⟨k + 1, s3, log ++ s.pull.2.toList ++ [.fed s.pull.1.pending r.used r.out (ofRet r.ret)], r.out, ho, fun f hf n hn' => ?_, hh3⟩
            obtain ⟨n, rfl⟩ : ∃ n', n = n' + 1 := ⟨n - 1, by omega⟩
            rw [hround f (by omega) n, if_neg hnf, if_neg hsuc, if_neg ho]

/-- Reading on and on. -/
theorem tail_reads (hs : Serves dw file data) (ht : tail ≠ []) :
    ∀ (caps : List Nat) (s : Reader (Slot Dec)) (log : List Entry) (out : List UInt8), (∀ c ∈ caps, 0 < c) →
      HeldT dw skip (file ++ tail) s out →
      (∃ k s' log' bs, (∀ f, k ≤ f → ∀ n, k ≤ n → readToEnd (decProc dw f) n caps s log = some (s', log', bs, .more)) ∧
        caps.length ≤ bs.length ∧ out ++ bs <+: data) ∨
      (∃ j k s' log' bs, j < caps.length ∧
        (∀ f, k ≤ f → ∀ n, k ≤ n → readToEnd (decProc dw f) n (caps.take j) s log = some (s', log', bs, .more)) ∧
        out ++ bs = data ∧ ∀ n, ∃ k, ∀ f, k ≤ f → readToEnd (decProc dw f) n caps s log = none) := by
  intro caps
  induction caps with
  | nil =>
    intro s log out _ hh
    exact Or.inl ⟨0, s, log, [], fun _ _ _ _ => rfl, Nat.le_refl _, by rw [List.append_nil]; exact reached_pre hs hh.ok⟩
  | cons cap caps ih =>
    intro s log out hpos hh
    rcases tail_read hs ht (hpos cap (by simp)) _ _ s false log out (Nat.le_refl _) (Nat.lt_succ_self _) hh (fun h => by cases h) with
      ⟨k, s', log', bs, hb, e, hh'⟩ | ⟨hd, hl⟩
    · cases bs with
      | nil => exact absurd rfl hb
      | cons b bs =>
        have e' : ∀ f, k ≤ f → ∀ n, k ≤ n → s.read (decProc dw f) n cap log = some (s', log', .ok (b :: bs)) := e
        rcases ih s' log' (out ++ (b :: bs)) (fun c hc => hpos c (by simp [hc])) hh' with
          ⟨k2, s2, log2, bs2, e2, hl2, hp2⟩ | ⟨j, k2, s2, log2, bs2, hj, e2, hp2, hl2⟩
        · refine Or.inl ⟨max k k2, s2, log2, (b :: bs) ++ bs2, fun f hf n hn => ?_, ?_, by rw [← List.append_assoc]; exact hp2⟩
          · rw [readToEnd, e' f (by omega) n (by omega)]
            simp only
            rw [e2 f (by omega) n (by omega)]
            rfl
          · rw [List.length_append, List.length_cons, List.length_cons]
            omega
        · refine Or.inr ⟨j + 1, max k k2, s2, log2, (b :: bs) ++ bs2, by rw [List.length_cons]; omega, fun f hf n hn => ?_,
            by rw [← List.append_assoc]; exact hp2, fun n => ?_⟩
          · rw [List.take_succ_cons, readToEnd, e' f (by omega) n (by omega)]
            simp only
            rw [e2 f (by omega) n (by omega)]
            rfl
          · obtain ⟨k3, e3⟩ := hl2 n
            refine ⟨max k k3, fun f hf => ?_⟩
            rw [readToEnd]
            cases hx : s.read (decProc dw f) n cap log with
            | none => rfl
            | some x =>
              have h1 := loop_mono _ _ _ _ _ _ _ hx (max n k) (Nat.le_max_left _ _)
              have h2 := e f (by omega) (max n k) (Nat.le_max_right _ _)
              rw [h1] at h2
              simp only [Option.some.injEq] at h2
              rw [h2]
              simp only
              rw [e3 f (by omega)]
              rfl
    · refine Or.inr ⟨0, 0, s, log, [], by simp, fun _ _ _ _ => rfl, by rw [List.append_nil]; exact hd, fun n => ?_⟩
      obtain ⟨k, e⟩ := hl n
      refine ⟨k, fun f hf => ?_⟩
      have : s.read (decProc dw f) n cap log = none := e f hf
      rw [readToEnd, this]

end Divans.Io
