import Verif.Hybrid
import Verif.GrowProps
import Verif.CompProps

/-!
# Running the compressor with brotli inside
-/

namespace Divans.Hybrid
open Divans.Pipe Divans.Eng Divans.Compressor

variable {σ : Type}

/-! ## The growing buffers -/

/-- What is committed. -/
def kept (d : Grow.Buf UInt8) : List UInt8 := d.data.take d.size

/-- A buffer that has only been asked for little at a time. -/
structure Roomy (d : Grow.Buf UInt8) : Prop where
  inside : d.size ≤ d.data.length
  big : d.data.length = 0 ∨ 66000 ≤ d.data.length

theorem roomy_new : Roomy (Grow.new : Grow.Buf UInt8) := ⟨by simp [Grow.new], .inl rfl⟩

theorem kept_new : kept Grow.new = [] := rfl

theorem kept_length {d : Grow.Buf UInt8} (h : Roomy d) : (kept d).length = d.size := by
  rw [kept, List.length_take]
  exact Nat.min_eq_left h.inside

theorem slice_kept {d : Grow.Buf UInt8} (h : Roomy d) : Grow.slice d = some (kept d) := by
  rw [Grow.slice, if_neg (by have := h.inside; omega)]
  rfl

theorem store_length {l w : List UInt8} (h : w.length ≤ l.length) : (store l w).length = l.length := by
  rw [store, List.length_append, List.length_drop]
  omega

/-- A checkout and a commit. -/
theorem use_spec {d : Grow.Buf UInt8} (h : Roomy d) {m : Nat} (hm : m ≤ 33000) :
    ∃ c l, Grow.checkout d (some m) = some (c, l) ∧ m ≤ l.length ∧ Roomy c ∧ kept c = kept d ∧ ∀ w : List UInt8, w.length ≤ l.length →
      Roomy (Grow.commit c (store l w) w.length) ∧ kept (Grow.commit c (store l w) w.length) = kept d ++ w := by
  obtain ⟨c, l, h1, h2, h3, h4, h5⟩ := Grow.checkout_spec h.inside (some m)
  have hf := Grow.firstSize_eq
  have hi := h.inside
  have hcap : Grow.cap d m = c.data.length := h5.symm
  have hbig : 66000 ≤ c.data.length ∧ d.size + m ≤ c.data.length := by
    rw [← hcap]
    unfold Grow.cap
    rcases h.big with h0 | h0
    · rw [if_pos h0]; omega
    · rw [if_neg (by omega)]
      split <;> omega
  refine ⟨c, l, h1, by omega, ⟨by omega, .inr hbig.1⟩, h4, fun w hw => ⟨⟨?_, ?_⟩, ?_⟩⟩
  · rw [Grow.commit_length h3 (store_length hw)]
    simp only [Grow.commit]
    omega
  · rw [Grow.commit_length h3 (store_length hw)]
    exact .inr hbig.1
  · simp only [kept, Grow.commit]
    rw [h4, store, ← List.append_assoc, List.take_append_of_le_length (by
      rw [List.length_append, List.length_take]; omega)]
    have hk : (List.take d.size d.data).length = c.size := by rw [List.length_take]; omega
    rw [← hk, ← List.length_append, List.take_length]

/-! ## Coding commands -/

theorem lt3_wf : WellFounded lt3 :=
  WellFounded.prod_lex Nat.lt_wfRel.wf (WellFounded.prod_lex Nat.lt_wfRel.wf Nat.lt_wfRel.wf)

/-- The codec and the growing buffer, where `pre` was written elsewhere before. -/
structure Coding (g : Cfg) (pre : List UInt8) (done : List Item) (e : Eng) (d : Grow.Buf UInt8) : Prop where
  eng : EngOk g e (pre ++ kept d) done
  roomy : Roomy d

/-- One round of `code`. -/
theorem code_round {g : Cfg} {pre : List UInt8} {done xs : List Item} {e : Eng} {d : Grow.Buf UInt8} (h : Coding g pre done e d)
    (hne : xs ≠ []) (hv : ∀ x ∈ xs, x.Valid g.o g.dw g.ring) (hx : ∀ y r, e.cur = some (y, r) → xs.head? = some y) :
    ∃ f0 e' d', e'.cmp.progress = 16 ∧
      ((∀ fuel, f0 ≤ fuel → ∀ k, code g.o g.dw fuel (k + 1) xs e d = some (e', d')) ∧
          Coding g pre (done ++ xs) e' d' ∧ e'.cur = none ∨
        ∃ n, (∀ fuel, f0 ≤ fuel → ∀ k, code g.o g.dw fuel (k + 1) xs e d = code g.o g.dw fuel k (xs.drop n) e' d') ∧
          n < xs.length ∧ Coding g pre (done ++ xs.take n) e' d' ∧ (∀ y r, e'.cur = some (y, r) → (xs.drop n).head? = some y) ∧
          (n = 0 → e.cmp.progress = 16 → e'.less e)) := by
  obtain ⟨c, l, u1, u2, u3, -, u4⟩ := use_spec h.roomy (m := 272) (by omega)
  obtain ⟨e1, w, ok, k1, k2, k3, k4, k5, k6, k7, k8, k9, k10⟩ := header_ok h.eng l.length
  have hok : ok = true := by
    cases ok with
    | true => rfl
    | false => have := k5 rfl; omega
  subst hok
  obtain ⟨f0, e2, out, n, r, m1, m2, m3⟩ := commands_spec xs hne k2 (k4 rfl) hv (by rw [k6]; exact hx) (l.length - w.length)
  have hlen : (w ++ out).length ≤ l.length := by
    rw [List.length_append]
    have := m3.len
    omega
  obtain ⟨u5, u6⟩ := u4 (w ++ out) hlen
  have hk : EngOk g e2 (pre ++ kept (Grow.commit c (store l (w ++ out)) (w ++ out).length)) (done ++ xs.take n) := by
    rw [u6]
    have := m3.ok
    simp only [List.append_assoc] at this ⊢
    exact this
  refine ⟨f0, e2, Grow.commit c (store l (w ++ out)) (w ++ out).length, m2, ?_⟩
  rcases m3.cases with ⟨rfl, hn, hc⟩ | ⟨rfl, hl, hn, hless⟩
  · left
    refine ⟨fun fuel hf k => ?_, ⟨?_, u5⟩, hc⟩
    · rw [code, u1]
      simp only [k1, m1 fuel hf, hn, if_true]
    · rw [hn, List.take_length] at hk
      exact hk
  · right
    refine ⟨n, fun fuel hf k => ?_, hn, ⟨hk, u5⟩, m3.head, fun h0 h16 => ?_⟩
    · rw [code, u1]
      simp only [k1, m1 fuel hf]
    · have := hless h0
      rw [(k10 h16).1] at this
      exact this

theorem code_more {g : Cfg} {pre : List UInt8} : ∀ (len : Nat) (t : Nat × Nat × Nat) (xs done : List Item) (e : Eng)
    (d : Grow.Buf UInt8), xs.length = len → engMu e = t → Coding g pre done e d → e.cmp.progress = 16 → xs ≠ [] →
    (∀ x ∈ xs, x.Valid g.o g.dw g.ring) → (∀ y r, e.cur = some (y, r) → xs.head? = some y) →
    ∃ f0 e' d', (∀ fuel, f0 ≤ fuel → ∀ k, f0 ≤ k → code g.o g.dw fuel k xs e d = some (e', d')) ∧
      Coding g pre (done ++ xs) e' d' ∧ e'.cur = none ∧ e'.cmp.progress = 16 := by
  intro len
  induction len using Nat.strong_induction_on with
  | _ len ih =>
  intro t
  induction t using lt3_wf.induction with
  | _ t ih2 =>
  intro xs done e d hlen ht h hp hne hv hx
  obtain ⟨f0, e1, d1, hp1, hr⟩ := code_round h hne hv hx
  rcases hr with ⟨h1, h2, h3⟩ | ⟨n, h1, h2, h3, h4, h5⟩
  · refine ⟨f0 + 1, e1, d1, fun fuel hf k hk => ?_, h2, h3, hp1⟩
    obtain ⟨k, rfl⟩ : ∃ k', k = k' + 1 := ⟨k - 1, by omega⟩
    exact h1 fuel (by omega) k
  · have hne' : xs.drop n ≠ [] := by
      intro h0
      have := congrArg List.length h0
      rw [List.length_drop, List.length_nil] at this
      omega
    have hv' : ∀ x ∈ xs.drop n, x.Valid g.o g.dw g.ring := fun x hx => hv x (List.mem_of_mem_drop hx)
    have hrec : ∃ f1 e' d', (∀ fuel, f1 ≤ fuel → ∀ k, f1 ≤ k → code g.o g.dw fuel k (xs.drop n) e1 d1 = some (e', d')) ∧
        Coding g pre (done ++ xs.take n ++ xs.drop n) e' d' ∧ e'.cur = none ∧ e'.cmp.progress = 16 := by
      rcases Nat.eq_zero_or_pos n with h0 | h0
      · subst h0
        exact ih2 (engMu e1) (by rw [← ht]; exact less_mu (h5 rfl hp)) (xs.drop 0) _ e1 d1 (by simpa using hlen) rfl h3 hp1 hne' hv' h4
      · exact ih (xs.drop n).length (by rw [List.length_drop]; omega) _ (xs.drop n) _ e1 d1 rfl rfl h3 hp1 hne' hv' h4
    obtain ⟨f1, e', d', q1, q2, q3, q4⟩ := hrec
    rw [List.append_assoc, List.take_append_drop] at q2
    refine ⟨max f0 f1 + 1, e', d', fun fuel hf k hk => ?_, q2, q3, q4⟩
    obtain ⟨k, rfl⟩ : ∃ k', k = k' + 1 := ⟨k - 1, by omega⟩
    rw [h1 fuel (by omega) k]
    exact q1 fuel (by omega) k (by omega)

/-- `divans_encode_commands` takes valid commands. -/
theorem code_spec {g : Cfg} {pre : List UInt8} {xs done : List Item} {e : Eng} {d : Grow.Buf UInt8} (h : Coding g pre done e d)
    (hc : e.cur = none) (hne : xs ≠ []) (hv : ∀ x ∈ xs, x.Valid g.o g.dw g.ring) :
    ∃ f0 e' d', (∀ fuel, f0 ≤ fuel → code g.o g.dw fuel fuel xs e d = some (e', d')) ∧
      Coding g pre (done ++ xs) e' d' ∧ e'.cur = none ∧ e'.cmp.progress = 16 := by
  obtain ⟨f0, e1, d1, hp1, hr⟩ := code_round h hne hv (fun y r hy => by rw [hc] at hy; cases hy)
  rcases hr with ⟨h1, h2, h3⟩ | ⟨n, h1, h2, h3, h4, h5⟩
  · refine ⟨f0 + 1, e1, d1, fun fuel hf => ?_, h2, h3, hp1⟩
    have := h1 fuel (by omega) (fuel - 1)
    rwa [show fuel - 1 + 1 = fuel by omega] at this
  · have hne' : xs.drop n ≠ [] := by
      intro h0
      have := congrArg List.length h0
      rw [List.length_drop, List.length_nil] at this
      omega
    obtain ⟨f1, e', d', q1, q2, q3, q4⟩ := code_more _ _ (xs.drop n) _ e1 d1 rfl rfl h3 hp1 hne'
      (fun x hx => hv x (List.mem_of_mem_drop hx)) h4
    rw [List.append_assoc, List.take_append_drop] at q2
    refine ⟨max f0 f1 + 1, e', d', fun fuel hf => ?_, q2, q3, q4⟩
    have := h1 fuel (by omega) (fuel - 1)
    rw [show fuel - 1 + 1 = fuel by omega] at this
    rw [this]
    exact q1 fuel (by omega) (fuel - 1) (by omega)

/-! ## What brotli has to do -/

/-- The commands of metablocks. -/
def items (bs : List Block) : List Item := bs.flatMap fun b => .pm b.pm :: b.cmds.getD []

/-- What is asked of brotli's encoder.  `I fin s bytes xs`: having been given `bytes` and having handed the commands `xs` to
the callback, the encoder is in state `s`; `fin`: its stream is being ended.

* `PROCESS` never fails and never ends the stream; it takes a beginning of the input, and all of it unless it has filled the
  output; if it takes nothing there is less to come (`m`).
* `FINISH` never fails; it ends the stream unless it has filled the output, and then there is less to come.
* The commands are valid, and when the stream has ended they stand for the bytes, with copies only from earlier bytes. -/
structure Meets (b : Brotli σ) (g : Cfg) (I : Bool → σ → List UInt8 → List Item → Prop) (m : σ → Nat) : Prop where
  unfinished : ∀ s bytes xs, I false s bytes xs → b.finished s = false
  valid : ∀ fin s bytes xs, I fin s bytes xs → ∀ x ∈ xs, x.Valid g.o g.dw g.ring
  process : ∀ s bytes xs inp room, I false s bytes xs → 256 ≤ room →
    (b.stream s false inp room).ok = true ∧ (b.stream s false inp room).took ≤ inp.length ∧
    (b.stream s false inp room).wrote.length ≤ room ∧ (∀ x ∈ (b.stream s false inp room).blocks, x.cmds ≠ none) ∧
    I false (b.stream s false inp room).st (bytes ++ inp.take (b.stream s false inp room).took)
      (xs ++ items (b.stream s false inp room).blocks) ∧
    ((b.stream s false inp room).took < inp.length → (b.stream s false inp room).wrote.length = room) ∧
    ((b.stream s false inp room).took = 0 → inp ≠ [] → m (b.stream s false inp room).st < m s)
  finish : ∀ fin s bytes xs room, I fin s bytes xs → b.finished s = false → 256 ≤ room →
    (b.stream s true [] room).ok = true ∧ (b.stream s true [] room).took = 0 ∧
    (b.stream s true [] room).wrote.length ≤ room ∧ (∀ x ∈ (b.stream s true [] room).blocks, x.cmds ≠ none) ∧
    I true (b.stream s true [] room).st bytes (xs ++ items (b.stream s true [] room).blocks) ∧
    (b.finished (b.stream s true [] room).st = false →
      (b.stream s true [] room).wrote.length = room ∧ m (b.stream s true [] room).st < m s)
  stands : ∀ fin s bytes xs, I fin s bytes xs → b.finished s = true →
    Recode.InHistory 0 (xs.map (Item.ringCmd g.dw)) ∧ original g.dw xs = bytes

/-! ## Metablocks -/

/-- The codec side of the compressor: `pre` was written elsewhere, `done` are the commands coded. -/
structure Sound (g : Cfg) (pre : List UInt8) (done : List Item) (h : Hy σ) : Prop where
  coding : Coding g pre done h.eng h.data
  cur : h.eng.cur = none
  lost : h.lost = false
  start : h.offset = 0
  early : h.eng.cmp.progress ≠ 16 → kept h.data = []

theorem blocks_spec {g : Cfg} {pre : List UInt8} : ∀ (bs : List Block) (done : List Item) (h : Hy σ),
    Sound g pre done h → (∀ x ∈ bs, x.cmds ≠ none) → (∀ x ∈ items bs, x.Valid g.o g.dw g.ring) →
    ∃ f0 e d, (∀ fuel, f0 ≤ fuel → blocks g.o g.dw fuel bs h = some ({ h with eng := e, data := d }, false)) ∧
      Sound g pre (done ++ items bs) { h with eng := e, data := d } ∧
      (h.eng.cmp.progress = 16 → e.cmp.progress = 16) := by
  intro bs
  induction bs with
  | nil =>
    intro done h hs _ _
    exact ⟨0, h.eng, h.data, fun _ _ => rfl, by simpa [items] using hs, id⟩
  | cons b bs ih =>
    intro done h hs hb hv
    obtain ⟨xs, hx⟩ : ∃ xs, b.cmds = some xs := Option.ne_none_iff_exists'.1 (hb b (by simp))
    have hit : items (b :: bs) = (Item.pm b.pm :: xs) ++ items bs := by
      simp [items, hx]
    rw [hit] at hv
    obtain ⟨f1, e1, d1, a1, a2, a3, a4⟩ := code_spec (xs := [.pm b.pm]) hs.coding hs.cur (by simp) (by
      intro x hx; exact hv x (by simp at hx; simp [hx]))
    have hlost : h.lost ≠ true := by rw [hs.lost]; simp
    by_cases hxs : xs = []
    · subst hxs
      obtain ⟨f2, e, d, b1, b2, b3⟩ := ih (done ++ [.pm b.pm]) { h with eng := e1, data := d1 }
        ⟨a2, a3, hs.lost, hs.start, fun hne => absurd a4 hne⟩ (fun x hx => hb x (by simp [hx])) (fun x hx => hv x (by simp [hx]))
      refine ⟨max f1 f2, e, d, fun fuel hf => ?_, ?_, fun _ => b3 a4⟩
      · rw [blocks, if_neg hlost]
        simp only [hx, a1 fuel (by omega), if_true]
        exact b1 fuel (by omega)
      · rw [hit]
        simpa using b2
    · obtain ⟨f3, e3, d3, c1, c2, c3, c4⟩ := code_spec (xs := xs) a2 a3 hxs (fun x hx => hv x (by simp [hx]))
      obtain ⟨f2, e, d, b1, b2, b3⟩ := ih (done ++ [.pm b.pm] ++ xs) { h with eng := e3, data := d3 }
        ⟨c2, c3, hs.lost, hs.start, fun hne => absurd c4 hne⟩ (fun x hx => hb x (by simp [hx])) (fun x hx => hv x (by simp [hx]))
      refine ⟨max f1 (max f2 f3), e, d, fun fuel hf => ?_, ?_, fun _ => b3 c4⟩
      · rw [blocks, if_neg hlost]
        simp only [hx, a1 fuel (by omega), hxs, if_false, c1 fuel (by omega)]
        exact b1 fuel (by omega)
      · rw [hit]
        simpa using b2

/-! ## Ending the codec's stream -/

theorem shut_more {g : Cfg} {pre : List UInt8} {done : List Item} : ∀ (t : Nat × Nat × Nat × Nat × Nat × Nat × Nat) (e : Eng)
    (d : Grow.Buf UInt8), rank ⟨e, (Comp.new none).asm, []⟩ = t → EngEnd g e (pre ++ kept d) done → Roomy d →
    ∃ f0 e' d', (∀ k, f0 ≤ k → shut k e d = some (e', d', .success)) ∧ EngEnd g e' (pre ++ kept d') done ∧ Roomy d' ∧
      e'.ending = some [] ∧ e'.cmp.stage = .done := by
  intro t
  induction t using lt7_wf.induction with
  | _ t ih =>
  intro e d ht h hr
  obtain ⟨c, l, u1, u2, u3, -, u4⟩ := use_spec hr (m := 272) (by omega)
  obtain ⟨e1, o, r, k1, k2, k3⟩ := flush_again h l.length
  obtain ⟨u5, u6⟩ := u4 o k2.len
  have hk : EngEnd g e1 (pre ++ kept (Grow.commit c (store l o) o.length)) done := by
    rw [u6, ← List.append_assoc]
    exact k2.end_
  rcases k2.code with ⟨rfl, h1, h2⟩ | ⟨rfl, h1⟩
  · refine ⟨1, e1, _, fun k hk' => ?_, hk, u5, h1, h2⟩
    obtain ⟨k, rfl⟩ : ∃ k', k = k' + 1 := ⟨k - 1, by omega⟩
    rw [shut, u1]
    simp only [k1, if_neg (show ¬ (Code.success = Code.needsOutput) by simp)]
  · have hless := k3 (by intro h0; rw [h0, List.length_nil] at h1; omega)
    obtain ⟨f0, e', d', q1, q2⟩ := ih (rank ⟨e1, (Comp.new none).asm, []⟩) (by rw [← ht]; exact rank_end hless) e1 _ rfl hk u5
    refine ⟨f0 + 1, e', d', fun k hk' => ?_, q2⟩
    obtain ⟨k, rfl⟩ : ∃ k', k = k' + 1 := ⟨k - 1, by omega⟩
    rw [shut, u1]
    simp only [k1, if_true]
    exact q1 k (by omega)

theorem shut_spec {g : Cfg} {pre : List UInt8} {done : List Item} : ∀ (p : Nat) (e : Eng) (d : Grow.Buf UInt8), e.pending = p →
    EngOk g e (pre ++ kept d) done → e.cur = none → e.cmp.progress = 16 → Roomy d →
    ∃ f0 e' d', (∀ k, f0 ≤ k → shut k e d = some (e', d', .success)) ∧ EngEnd g e' (pre ++ kept d') done ∧ Roomy d' ∧
      e'.ending = some [] ∧ e'.cmp.stage = .done := by
  intro p
  induction p using Nat.strong_induction_on with
  | _ p ih =>
  intro e d hp h hc hg hr
  obtain ⟨c, l, u1, u2, u3, -, u4⟩ := use_spec hr (m := 272) (by omega)
  obtain ⟨e1, o, r, k1, k2⟩ := flush_first h hc hg l.length
  rcases k2 with k2 | ⟨rfl, hl, k2, k3, k4, k5⟩
  · obtain ⟨u5, u6⟩ := u4 o k2.len
    have hk : EngEnd g e1 (pre ++ kept (Grow.commit c (store l o) o.length)) done := by
      rw [u6, ← List.append_assoc]
      exact k2.end_
    rcases k2.code with ⟨rfl, h1, h2⟩ | ⟨rfl, h1⟩
    · refine ⟨1, e1, _, fun k hk' => ?_, hk, u5, h1, h2⟩
      obtain ⟨k, rfl⟩ : ∃ k', k = k' + 1 := ⟨k - 1, by omega⟩
      rw [shut, u1]
      simp only [k1, if_neg (show ¬ (Code.success = Code.needsOutput) by simp)]
    · obtain ⟨f0, e', d', q1, q2⟩ := shut_more _ e1 _ rfl hk u5
      refine ⟨f0 + 1, e', d', fun k hk' => ?_, q2⟩
      obtain ⟨k, rfl⟩ : ∃ k', k = k' + 1 := ⟨k - 1, by omega⟩
      rw [shut, u1]
      simp only [k1, if_true]
      exact q1 k (by omega)
  · obtain ⟨u5, u6⟩ := u4 o (by omega)
    obtain ⟨f0, e', d', q1, q2⟩ := ih e1.pending (by omega) e1 (Grow.commit c (store l o) o.length) rfl
      (by rw [u6, ← List.append_assoc]; exact k2) k3 k4 u5
    refine ⟨f0 + 1, e', d', fun k hk' => ?_, q2⟩
    obtain ⟨k, rfl⟩ : ∃ k', k = k' + 1 := ⟨k - 1, by omega⟩
    rw [shut, u1]
    simp only [k1, if_true]
    exact q1 k (by omega)

/-! ## Calls -/

/-- The compressor before brotli's stream has ended: it was given `bytes`, and has written `pre` to the caller. -/
structure Live (b : Brotli σ) (g : Cfg) (I : Bool → σ → List UInt8 → List Item → Prop) (fin : Bool) (bytes pre : List UInt8)
    (h : Hy σ) : Prop where
  given : ∃ xs, I fin h.br bytes xs ∧ Sound g pre xs h
  scratch : Roomy h.scratch
  unfinished : b.finished h.br = false

/-- The compressor after brotli's stream has ended. -/
structure Done (b : Brotli σ) (g : Cfg) (bytes pre : List UInt8) (h : Hy σ) : Prop where
  finished : b.finished h.br = true
  roomy : Roomy h.data
  offset : h.offset ≤ h.data.size
  prog : h.eng.cmp.progress = 16
  file : Restores g.dw (pre ++ kept h.data) bytes

section
variable {b : Brotli σ} {g : Cfg} {I : Bool → σ → List UInt8 → List Item → Prop} {m : σ → Nat}

theorem live_new (hb : Meets b g I m) {st : σ} (h0 : I false st [] []) : Live b g I false [] [] (.new g.window st) :=
  ⟨⟨[], h0, ⟨⟨engOk_new g, roomy_new⟩, rfl, rfl, rfl, fun _ => rfl⟩⟩, roomy_new, hb.unfinished _ _ _ h0⟩

/-- `encode` never fails, and takes a beginning of the input. -/
theorem encode_spec (hb : Meets b g I m) {bytes pre : List UInt8} {h : Hy σ} (hl : Live b g I false bytes pre h)
    (inp : List UInt8) :
    ∃ f0 h' n, (∀ fuel, f0 ≤ fuel → h.encode b g.o g.dw fuel inp = some (h', n, .needsInput)) ∧ n ≤ inp.length ∧
      Live b g I false (bytes ++ inp.take n) pre h' ∧ (n = 0 → inp ≠ [] → m h'.br < m h.br) ∧
      ∃ c l, Grow.checkout h.scratch (some 256) = some (c, l) ∧ 256 ≤ l.length ∧ n = (b.stream h.br false inp l.length).took ∧
        h'.br = (b.stream h.br false inp l.length).st := by
  obtain ⟨⟨xs, hi, hs⟩, hscr, hfin⟩ := hl
  obtain ⟨c, l, u1, u2, u3, -, u4⟩ := use_spec hscr (m := 256) (by omega)
  obtain ⟨p1, p2, p3, p4, p5, p6, p7⟩ := hb.process h.br bytes xs inp l.length hi u2
  obtain ⟨r, hr⟩ : ∃ r, r = b.stream h.br false inp l.length := ⟨_, rfl⟩
  rw [← hr] at p1 p2 p3 p4 p5 p6 p7
  obtain ⟨f0, e, d, q1, q2, -⟩ := blocks_spec r.blocks xs { h with br := r.st, scratch := c }
    ⟨hs.coding, hs.cur, hs.lost, hs.start, hs.early⟩ p4 (fun x hx => hb.valid _ _ _ _ p5 x (by simp [hx]))
  obtain ⟨u5, -⟩ := u4 r.wrote p3
  have hnf := hb.unfinished _ _ _ p5
  refine ⟨f0, ⟨r.st, e, Grow.commit c (store l r.wrote) r.wrote.length, d, h.offset, h.lost⟩, r.took, fun fuel hf => ?_, p2,
    ⟨⟨_, p5, ⟨q2.coding, q2.cur, q2.lost, q2.start, q2.early⟩⟩, u5, hnf⟩, p7, c, l, u1, u2, by rw [hr], by rw [hr]⟩
  have e1 : h.stream b g.o g.dw fuel false inp =
      some (⟨r.st, e, Grow.commit c (store l r.wrote) r.wrote.length, d, h.offset, h.lost⟩, r.took, .needsInput) := by
    unfold Hy.stream
    rw [if_neg (by rw [hfin]; simp), u1]
    simp only [← hr, q1 fuel hf, p1, hnf]
    simp
  rw [Hy.encode, e1]
  rfl

/-- One round of ending brotli's stream. -/
theorem finish_spec (hb : Meets b g I m) {fin : Bool} {bytes pre : List UInt8} {h : Hy σ} (hl : Live b g I fin bytes pre h)
    (hp : h.eng.cmp.progress = 16) :
    ∃ f0 h' code, (∀ fuel, f0 ≤ fuel → h.stream b g.o g.dw fuel true [] = some (h', 0, code)) ∧
      (code = .needsOutput ∧ Live b g I true bytes pre h' ∧ h'.eng.cmp.progress = 16 ∧ m h'.br < m h.br ∨
        code = .success ∧ Done b g bytes pre h' ∧ h'.offset = 0) := by
  obtain ⟨⟨xs, hi, hs⟩, hscr, hfin⟩ := hl
  obtain ⟨c, l, u1, u2, u3, -, u4⟩ := use_spec hscr (m := 256) (by omega)
  obtain ⟨p1, p2, p3, p4, p5, p6⟩ := hb.finish fin h.br bytes xs l.length hi hfin u2
  obtain ⟨r, hr⟩ : ∃ r, r = b.stream h.br true [] l.length := ⟨_, rfl⟩
  rw [← hr] at p1 p2 p3 p4 p5 p6
  obtain ⟨f0, e, d, q1, q2, q3⟩ := blocks_spec r.blocks xs { h with br := r.st, scratch := c }
    ⟨hs.coding, hs.cur, hs.lost, hs.start, hs.early⟩ p4 (fun x hx => hb.valid _ _ _ _ p5 x (by simp [hx]))
  obtain ⟨u5, -⟩ := u4 r.wrote p3
  have hprog := q3 hp
  cases hf : b.finished r.st with
  | false =>
    obtain ⟨h1, h2⟩ := p6 hf
    refine ⟨f0, ⟨r.st, e, Grow.commit c (store l r.wrote) r.wrote.length, d, h.offset, h.lost⟩, .needsOutput, fun fuel hf' => ?_,
      .inl ⟨rfl, ⟨⟨_, p5, ⟨q2.coding, q2.cur, q2.lost, q2.start, q2.early⟩⟩, u5, hf⟩, hprog, h2⟩⟩
    unfold Hy.stream
    rw [if_neg (by rw [hfin]; simp), u1]
    simp only [← hr, q1 fuel hf', p1, hf, h1, p2]
    simp
  | true =>
    obtain ⟨f1, e', d', s1, s2, s3, s4, s5⟩ := shut_spec _ e d rfl q2.coding.eng q2.cur hprog q2.coding.roomy
    refine ⟨max f0 f1, ⟨r.st, e', Grow.commit c (store l r.wrote) r.wrote.length, d', h.offset, h.lost⟩, .success,
      fun fuel hf' => ?_, .inr ⟨rfl, ⟨hf, s3, ?_, s2.prog, ?_⟩, hs.start⟩⟩
    · unfold Hy.stream
      rw [if_neg (by rw [hfin]; simp), u1]
      simp only [← hr, q1 fuel (by omega), p1, hf, p2]
      simp only [hs.lost, s1 fuel (by omega)]
      simp
    · show h.offset ≤ _
      rw [hs.start]
      exact Nat.zero_le _
    · obtain ⟨i1, i2⟩ := hb.stands _ _ _ _ p5 hf
      have := finished s2 s4 s5 (hb.valid _ _ _ _ p5) i1
      rw [i2] at this
      exact this

theorem ended_spec (hb : Meets b g I m) {bytes pre : List UInt8} : ∀ (n : Nat) (fin : Bool) (h : Hy σ), m h.br = n →
    Live b g I fin bytes pre h → h.eng.cmp.progress = 16 →
    ∃ f0 h', (∀ fuel, f0 ≤ fuel → ∀ k, f0 ≤ k → h.ended b g.o g.dw fuel k = some (h', true)) ∧ Done b g bytes pre h' ∧ h'.offset = 0 := by
  intro n
  induction n using Nat.strong_induction_on with
  | _ n ih =>
  intro fin h hn hl hp
  obtain ⟨f0, h1, code, e, hc⟩ := finish_spec hb hl hp
  rcases hc with ⟨rfl, q1, q2, q3⟩ | ⟨rfl, q1, q2⟩
  · obtain ⟨f1, h', a1, a2⟩ := ih (m h1.br) (by omega) true h1 rfl q1 q2
    refine ⟨max f0 f1 + 1, h', fun fuel hf k hk => ?_, a2⟩
    obtain ⟨k, rfl⟩ : ∃ k', k = k' + 1 := ⟨k - 1, by omega⟩
    rw [Hy.ended, e fuel (by omega)]
    exact a1 fuel (by omega) k (by omega)
  · refine ⟨f0 + 1, h1, fun fuel hf k hk => ?_, q1, q2⟩
    obtain ⟨k, rfl⟩ : ∃ k', k = k' + 1 := ⟨k - 1, by omega⟩
    rw [Hy.ended, e fuel (by omega)]

/-- Flushing: `out` has been given to the caller. -/
def Flushing (b : Brotli σ) (g : Cfg) (I : Bool → σ → List UInt8 → List Item → Prop) (bytes out : List UInt8) (h : Hy σ) : Prop :=
  (∃ fin, Live b g I fin bytes out h) ∨ ∃ pre, Done b g bytes pre h ∧ out = pre ++ (kept h.data).take h.offset

/-- What is left of flushing. -/
def todo (b : Brotli σ) (h : Hy σ) : Nat × Nat :=
  if b.finished h.br then (0, h.data.size - h.offset) else (1, 16 - h.eng.cmp.progress)

/-- The end of `flush`: copying. -/
theorem copy_spec {bytes pre w : List UInt8} {h : Hy σ} (hd : Done b g bytes pre h) (room : Nat) (hw : w.length ≤ room) :
    ∃ h' o code, (match Grow.slice h.data with
        | none => none
        | some all =>
          if all.length < h.offset then none
          else
            some ({ h with offset := h.offset + min (all.length - h.offset) (room - w.length) },
              w ++ (all.drop h.offset).take (min (all.length - h.offset) (room - w.length)),
              if h.offset + min (all.length - h.offset) (room - w.length) = Grow.len h.data then Code.success else .needsOutput)) =
        some (h', w ++ o, code) ∧ (w ++ o).length ≤ room ∧ Done b g bytes pre h' ∧
      (kept h'.data).take h'.offset = (kept h.data).take h.offset ++ o ∧
      (code = .success ∧ (kept h'.data).take h'.offset = kept h.data ∨ code = .needsOutput ∧ (w ++ o).length = room) ∧
      h'.br = h.br ∧ h'.data = h.data ∧ h'.offset = h.offset + o.length := by
  have hk := kept_length hd.roomy
  have ho := hd.offset
  obtain ⟨n, hn⟩ : ∃ n, n = min ((kept h.data).length - h.offset) (room - w.length) := ⟨_, rfl⟩
  have hol : ((List.drop h.offset (kept h.data)).take n).length = n := by
    rw [List.length_take, List.length_drop]
    omega
  refine ⟨{ h with offset := h.offset + n }, ((kept h.data).drop h.offset).take n,
    if h.offset + n = h.data.size then .success else .needsOutput, ?_, ?_, ?_, ?_, ?_, rfl, rfl, ?_⟩
  · rw [slice_kept hd.roomy]
    simp only [if_neg (show ¬ (kept h.data).length < h.offset by omega), ← hn, Grow.len]
  · rw [List.length_append, hol]
    omega
  · exact ⟨hd.finished, hd.roomy, by show h.offset + n ≤ h.data.size; omega, hd.prog, hd.file⟩
  · show (kept h.data).take (h.offset + n) = _
    rw [List.take_add]
  · by_cases hq : h.offset + n = h.data.size
    · rw [if_pos hq]
      left
      refine ⟨rfl, ?_⟩
      show (kept h.data).take (h.offset + n) = _
      rw [hq, ← hk, List.take_length]
    · rw [if_neg hq]
      right
      refine ⟨rfl, ?_⟩
      rw [List.length_append, hol]
      omega
  · show h.offset + n = h.offset + _
    rw [hol]

/-- One call of `flush`. -/
theorem flush_spec (hb : Meets b g I m) {bytes out : List UInt8} {h : Hy σ} (hf : Flushing b g I bytes out h) (room : Nat) :
    ∃ f0 h' o code, (∀ fuel, f0 ≤ fuel → h.flush b g.o g.dw fuel room = some (h', o, code)) ∧ o.length ≤ room ∧
      Flushing b g I bytes (out ++ o) h' ∧
      (o ≠ [] → Prod.Lex (· < ·) (· < ·) (todo b h') (todo b h)) ∧
      (code = .success ∧ Restores g.dw (out ++ o) bytes ∨ code = .needsOutput ∧ o.length = room) := by
  rcases hf with ⟨fin, hl⟩ | ⟨pre, hd, rfl⟩
  · obtain ⟨xs, hi, hs⟩ := hl.given
    obtain ⟨e, w, ok, k1, k2, k3, k4, k5, k6, k7, k8, k9, k10⟩ := header_ok hs.coding.eng room
    have hcomm : out ++ kept h.data ++ w = out ++ w ++ kept h.data := by
      by_cases h16 : h.eng.cmp.progress = 16
      · rw [(k10 h16).2]; simp
      · rw [hs.early h16]; simp
    rw [hcomm] at k2
    have hearly : e.cmp.progress ≠ 16 → kept h.data = [] := fun hne => hs.early (fun h16 => hne (by rw [(k10 h16).1]; exact h16))
    have hl' : Live b g I fin bytes (out ++ w) { h with eng := e } :=
      ⟨⟨xs, hi, ⟨⟨k2, hs.coding.roomy⟩, by rw [← hs.cur]; exact k6, hs.lost, hs.start, hearly⟩⟩, hl.scratch, hl.unfinished⟩
    cases ok with
    | false =>
      obtain ⟨q1, q2⟩ := k5 rfl
      refine ⟨0, { h with eng := e }, w, .needsOutput, fun fuel _ => ?_, k3, .inl ⟨fin, hl'⟩, fun hpos => ?_, .inr ⟨rfl, q1⟩⟩
      · rw [Hy.flush, k1]
      · have hpos := List.length_pos_iff.2 hpos
        have hu := hl.unfinished
        unfold todo
        simp only [hu]
        rw [Prod.lex_def]
        right
        refine ⟨rfl, ?_⟩
        show 16 - e.cmp.progress < 16 - h.eng.cmp.progress
        omega
    | true =>
      obtain ⟨f0, h1, a1, a2, a3⟩ := ended_spec hb _ fin { h with eng := e } rfl hl' (k4 rfl)
      obtain ⟨h', o, code, c1, c2, c3, c4, c5, c6, c7, c8⟩ := copy_spec a2 room k3
      rw [a3, List.take_zero, List.nil_append] at c4
      refine ⟨f0, h', w ++ o, code, fun fuel hf => ?_, c2, .inr ⟨out ++ w, c3, ?_⟩, fun _ => ?_, ?_⟩
      · rw [Hy.flush, k1]
        simp only [a1 fuel hf fuel hf]
        exact c1
      · rw [c4, List.append_assoc]
      · unfold todo
        rw [c6, if_pos a2.finished, if_neg (by rw [hl.unfinished]; simp), Prod.lex_def]
        left
        exact Nat.zero_lt_one
      · rcases c5 with ⟨r1, r2⟩ | ⟨r1, r2⟩
        · left
          refine ⟨r1, ?_⟩
          rw [← List.append_assoc, ← c4, r2]
          exact a2.file
        · exact .inr ⟨r1, r2⟩
  · obtain ⟨h', o, code, c1, c2, c3, c4, c5, c6, c7, c8⟩ := copy_spec hd (w := []) room (Nat.zero_le _)
    rw [List.nil_append] at c1 c2 c5
    refine ⟨1, h', o, code, fun fuel hf => ?_, c2, .inr ⟨pre, c3, by rw [c4, List.append_assoc]⟩, fun hpos => ?_, ?_⟩
    · have hst : h.stream b g.o g.dw fuel true [] = some (h, 0, .success) := by
        rw [Hy.stream, if_pos ⟨rfl, hd.finished⟩]
      obtain ⟨n, rfl⟩ : ∃ n, fuel = n + 1 := ⟨fuel - 1, by omega⟩
      have hen : h.ended b g.o g.dw (n + 1) (n + 1) = some (h, true) := by
        rw [Hy.ended, hst]
      rw [Hy.flush, header_noop hd.prog]
      simp only [hen]
      exact c1
    · have hpos := List.length_pos_iff.2 hpos
      unfold todo
      rw [c6, if_pos hd.finished, if_pos hd.finished, Prod.lex_def]
      right
      refine ⟨rfl, ?_⟩
      have := c3.offset
      rw [c7] at this ⊢
      show h.data.size - h'.offset < h.data.size - h.offset
      omega
    · rcases c5 with ⟨r1, r2⟩ | ⟨r1, r2⟩
      · left
        refine ⟨r1, ?_⟩
        rw [List.append_assoc, ← c4, r2]
        exact hd.file
      · exact .inr ⟨r1, r2⟩

end

end Divans.Hybrid
