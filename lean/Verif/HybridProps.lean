import Verif.HybridRun

/-!
# C70: the compressor with brotli inside

Brotli's encoder is any machine that keeps the contract `Meets`; the codec, the growing buffers and the calls are those of
the code.
-/

namespace Divans.Hybrid
open Divans.Pipe Divans.Eng Divans.Compressor

variable {σ : Type}

/-! ## The caller -/

/-- Calls of `encode`, each offering what the caller likes: the compressor, the bytes it took, the results. -/
def encodes (b : Brotli σ) (o : Codec.Opts) (dw : Nat → Nat → Nat → List UInt8) (fuel : Nat) :
    List (List UInt8) → Hy σ → Option (Hy σ × List UInt8 × List Code)
  | [], h => some (h, [], [])
  | inp :: rest, h =>
    match h.encode b o dw fuel inp with
    | none => none
    | some (h1, n, r) => (encodes b o dw fuel rest h1).map fun x => (x.1, inp.take n ++ x.2.1, r :: x.2.2)

/-- Calls of `encode` by a caller who has `data` and offers the next `sizes i` bytes of what was not yet taken in the `i`-th
call: the compressor, what is left, the results. -/
def offers (b : Brotli σ) (o : Codec.Opts) (dw : Nat → Nat → Nat → List UInt8) (fuel : Nat) :
    List Nat → List UInt8 → Hy σ → Option (Hy σ × List UInt8 × List Code)
  | [], data, h => some (h, data, [])
  | z :: rest, data, h =>
    match h.encode b o dw fuel (data.take z) with
    | none => none
    | some (h1, n, r) => (offers b o dw fuel rest (data.drop n) h1).map fun x => (x.1, x.2.1, r :: x.2.2)

/-- Calls of `flush`: the compressor, the bytes given out, the results. -/
def flushes (b : Brotli σ) (o : Codec.Opts) (dw : Nat → Nat → Nat → List UInt8) (fuel : Nat) :
    List Nat → Hy σ → Option (Hy σ × List UInt8 × List Code)
  | [], h => some (h, [], [])
  | room :: rest, h =>
    match h.flush b o dw fuel room with
    | none => none
    | some (h1, out, r) => (flushes b o dw fuel rest h1).map fun x => (x.1, out ++ x.2.1, r :: x.2.2)

/-! ## Round trip -/

section
variable {b : Brotli σ} {g : Cfg} {I : Bool → σ → List UInt8 → List Item → Prop} {m : σ → Nat}

theorem encodes_spec (hb : Meets b g I m) {pre : List UInt8} : ∀ (inps : List (List UInt8)) (bytes : List UInt8) (h : Hy σ),
    Live b g I false bytes pre h →
    ∃ f0 h' taken, (∀ fuel, f0 ≤ fuel → encodes b g.o g.dw fuel inps h = some (h', taken, inps.map fun _ => .needsInput)) ∧
      Live b g I false (bytes ++ taken) pre h' := by
  intro inps
  induction inps with
  | nil => intro bytes h hl; exact ⟨0, h, [], fun _ _ => rfl, by rw [List.append_nil]; exact hl⟩
  | cons inp inps ih =>
    intro bytes h hl
    obtain ⟨f0, h1, n, e1, -, hl1, -, -⟩ := encode_spec hb hl inp
    obtain ⟨f1, h2, taken, e2, hl2⟩ := ih _ h1 hl1
    refine ⟨max f0 f1, h2, inp.take n ++ taken, fun fuel hf => ?_, by rw [← List.append_assoc]; exact hl2⟩
    rw [encodes, e1 fuel (by omega)]
    simp only [e2 fuel (by omega), Option.map_some, List.map_cons]

theorem offers_spec (hb : Meets b g I m) {pre : List UInt8} : ∀ (t : Nat × Nat) (data bytes : List UInt8) (h : Hy σ),
    (data.length, m h.br) = t → Live b g I false bytes pre h → ∀ sizes : Nat → Nat, (∀ i, 0 < sizes i) →
    ∃ N f0 h' rets, (∀ fuel, f0 ≤ fuel → offers b g.o g.dw fuel ((List.range N).map sizes) data h = some (h', [], rets)) ∧
      (∀ r ∈ rets, r = .needsInput) ∧ Live b g I false (bytes ++ data) pre h' := by
  intro t
  induction t using (WellFounded.prod_lex Nat.lt_wfRel.wf Nat.lt_wfRel.wf).induction with
  | _ t ih =>
  intro data bytes h ht hl sizes hs
  by_cases hd : data = []
  · subst hd
    exact ⟨0, 0, h, [], fun _ _ => rfl, by simp, by rw [List.append_nil]; exact hl⟩
  · obtain ⟨f0, h1, n, e1, hn, hl1, hm, -⟩ := encode_spec hb hl (data.take (sizes 0))
    have hz := hs 0
    have hdl := List.length_pos_iff.2 hd
    have hnd : n ≤ data.length := by rw [List.length_take] at hn; omega
    have htake : (data.take (sizes 0)).take n = data.take n := by
      rw [List.take_take]
      congr 1
      rw [List.length_take] at hn
      omega
    rw [htake] at hl1
    obtain ⟨N, f1, h2, rets, e2, hr, hl2⟩ := ih ((data.drop n).length, m h1.br) (by
      rw [← ht]
      apply (Prod.lex_def ..).2
      simp only [List.length_drop]
      by_cases h0 : n = 0
      · right
        refine ⟨by omega, hm h0 ?_⟩
        intro hnil
        have := congrArg List.length hnil
        rw [List.length_take, List.length_nil] at this
        omega
      · left
        show data.length - n < data.length
        omega) (data.drop n) (bytes ++ data.take n) h1 rfl hl1 (fun i => sizes (i + 1)) (fun i => hs (i + 1))
    rw [List.append_assoc, List.take_append_drop] at hl2
    refine ⟨N + 1, max f0 f1, h2, .needsInput :: rets, fun fuel hf => ?_, ?_, hl2⟩
    · rw [List.range_succ_eq_map, List.map_cons, List.map_map, offers, e1 fuel (by omega)]
      have := e2 fuel (by omega)
      simp only [Function.comp_def, Nat.succ_eq_add_one] at this ⊢
      rw [this]
      rfl
    · intro r hr'
      rcases List.mem_cons.1 hr' with rfl | h'
      · rfl
      · exact hr r h'

theorem flushes_spec (hb : Meets b g I m) {bytes : List UInt8} : ∀ (rooms : List Nat) (out : List UInt8) (h : Hy σ),
    Flushing b g I bytes out h →
    ∃ f0 h' o rets, (∀ fuel, f0 ≤ fuel → flushes b g.o g.dw fuel rooms h = some (h', o, rets)) ∧
      (∀ r ∈ rets, r = .success ∨ r = .needsOutput) ∧ Flushing b g I bytes (out ++ o) h' ∧
      (rets.getLast? = some .success → Restores g.dw (out ++ o) bytes) := by
  intro rooms
  induction rooms with
  | nil => intro out h hl; exact ⟨0, h, [], [], fun _ _ => rfl, by simp, by rw [List.append_nil]; exact hl, fun h => by cases h⟩
  | cons room rooms ih =>
    intro out h hl
    obtain ⟨f0, h1, o1, r, e1, -, hl1, -, hc⟩ := flush_spec hb hl room
    obtain ⟨f1, h2, o2, rets, e2, hr, hl2, hlast⟩ := ih _ h1 hl1
    refine ⟨max f0 f1, h2, o1 ++ o2, r :: rets, fun fuel hf => ?_, ?_, by rw [← List.append_assoc]; exact hl2, fun hs => ?_⟩
    · rw [flushes, e1 fuel (by omega)]
      simp only [e2 fuel (by omega), Option.map_some]
    · intro r' hr'
      rcases List.mem_cons.1 hr' with rfl | h'
      · rcases hc with ⟨rfl, -⟩ | ⟨rfl, -⟩
        · exact .inl rfl
        · exact .inr rfl
      · exact hr r' h'
    · rw [← List.append_assoc]
      cases hrets : rets with
      | nil =>
        rw [hrets] at hs
        simp only [List.getLast?_singleton, Option.some.injEq] at hs
        have ho2 : o2 = [] := by
          cases rooms with
          | nil =>
            have := e2 f1 (Nat.le_refl _)
            rw [flushes] at this
            simp only [Option.some.injEq, Prod.mk.injEq] at this
            exact this.2.1.symm
          | cons a as =>
            exfalso
            have := e2 f1 (Nat.le_refl _)
            rw [flushes] at this
            cases hq : h1.flush b g.o g.dw f1 a with
            | none => rw [hq] at this; cases this
            | some y =>
              rw [hq] at this
              cases hq2 : flushes b g.o g.dw f1 as y.1 with
              | none => simp [hq2] at this
              | some z =>
                simp only [hq2, Option.map_some, Option.some.injEq, Prod.mk.injEq] at this
                rw [hrets] at this
                exact absurd this.2.2 (by simp)
        subst hs
        rw [ho2, List.append_nil]
        rcases hc with ⟨-, h'⟩ | ⟨h', -⟩
        · exact h'
        · cases h'
      | cons a as =>
        rw [hrets, List.getLast?_cons_cons] at hs
        exact hlast (by rw [hrets]; exact hs)

theorem flushes_ends (hb : Meets b g I m) {bytes : List UInt8} : ∀ (t : Nat × Nat) (out : List UInt8) (h : Hy σ),
    todo b h = t → Flushing b g I bytes out h → ∀ rooms : Nat → Nat, (∀ i, 0 < rooms i) →
    ∃ N f0 h' o rets, (∀ fuel, f0 ≤ fuel → flushes b g.o g.dw fuel ((List.range N).map rooms) h = some (h', o, rets)) ∧
      rets.getLast? = some .success ∧ Restores g.dw (out ++ o) bytes := by
  intro t
  induction t using (WellFounded.prod_lex Nat.lt_wfRel.wf Nat.lt_wfRel.wf).induction with
  | _ t ih =>
  intro out h ht hl rooms hr
  obtain ⟨f0, h1, o1, r, e1, -, hl1, hlt, hc⟩ := flush_spec hb hl (rooms 0)
  rcases hc with ⟨rfl, hres⟩ | ⟨rfl, hfull⟩
  · refine ⟨1, f0, h1, o1, [.success], fun fuel hf => ?_, rfl, hres⟩
    show flushes b g.o g.dw fuel [rooms 0] h = _
    rw [flushes, e1 fuel hf]
    simp [flushes]
  · have hpos := hr 0
    obtain ⟨N, f1, h2, o2, rets, e2, hlast, hres⟩ := ih (todo b h1)
      (by rw [← ht]; exact hlt (by intro h0; rw [h0, List.length_nil] at hfull; omega)) (out ++ o1) h1 rfl hl1
      (fun i => rooms (i + 1)) (fun i => hr (i + 1))
    refine ⟨N + 1, max f0 f1, h2, o1 ++ o2, .needsOutput :: rets, fun fuel hf => ?_, ?_, by rw [← List.append_assoc]; exact hres⟩
    · rw [List.range_succ_eq_map, List.map_cons, List.map_map, flushes, e1 fuel (by omega)]
      have := e2 fuel (by omega)
      simp only [Function.comp_def, Nat.succ_eq_add_one] at this ⊢
      rw [this]
      rfl
    · cases rets with
      | nil => cases hlast
      | cons a as => rw [List.getLast?_cons_cons]; exact hlast

/-- **C70, safety**, as long as the optimiser does not give up.  With an encoder that keeps the contract: whatever pieces a caller offers to `encode` (taken in part or
as a whole), and whatever buffers, also empty ones, the caller then gives to `flush`: no call fails or panics, and when a
`flush` reports success, what `flush` gave out is a file that decompresses to exactly the bytes `encode` took. -/
theorem hybrid_round_trip_partial (hb : Meets b g I m) {st : σ} (h0 : I false st [] []) (inps : List (List UInt8)) (rooms : List Nat) :
    ∃ f0 h taken h' file rets, (∀ fuel, f0 ≤ fuel →
        encodes b g.o g.dw fuel inps (.new g.window st) = some (h, taken, inps.map fun _ => .needsInput) ∧
        flushes b g.o g.dw fuel rooms h = some (h', file, rets)) ∧
      (∀ r ∈ rets, r = .success ∨ r = .needsOutput) ∧
      (rets.getLast? = some .success → Restores g.dw file taken) := by
  obtain ⟨f0, h, taken, e1, hl⟩ := encodes_spec hb inps [] _ (live_new hb h0)
  rw [List.nil_append] at hl
  obtain ⟨f1, h', file, rets, e2, hr, -, hres⟩ := flushes_spec hb rooms [] h (.inl ⟨false, hl⟩)
  exact ⟨max f0 f1, h, taken, h', file, rets, fun fuel hf => ⟨e1 fuel (by omega), e2 fuel (by omega)⟩, hr, hres⟩

/-- **C70, progress**, as long as the optimiser does not give up.  A caller who goes on offering what was not taken, in nonempty pieces of any sizes, gets all of it taken
after finitely many calls of `encode`, and then success from `flush` after finitely many more with nonempty buffers of any
sizes; the file decompresses to the data. -/
theorem hybrid_ends_partial (hb : Meets b g I m) {st : σ} (h0 : I false st [] []) (data : List UInt8) (sizes rooms : Nat → Nat)
    (hs : ∀ i, 0 < sizes i) (hr : ∀ i, 0 < rooms i) :
    ∃ N M f0 h rets h' file rets', (∀ fuel, f0 ≤ fuel →
        offers b g.o g.dw fuel ((List.range N).map sizes) data (.new g.window st) = some (h, [], rets) ∧
        flushes b g.o g.dw fuel ((List.range M).map rooms) h = some (h', file, rets')) ∧
      (∀ r ∈ rets, r = .needsInput) ∧ rets'.getLast? = some .success ∧ Restores g.dw file data := by
  obtain ⟨N, f0, h, rets, e1, hn, hl⟩ := offers_spec hb _ data [] _ rfl (live_new hb h0) sizes hs
  rw [List.nil_append] at hl
  obtain ⟨M, f1, h', file, rets', e2, hlast, hres⟩ := flushes_ends hb _ [] h rfl (.inl ⟨false, hl⟩) rooms hr
  exact ⟨N, M, max f0 f1, h, rets, h', file, rets', fun fuel hf => ⟨e1 fuel (by omega), e2 fuel (by omega)⟩, hn, hlast, hres⟩

end

/-! ## When the optimiser gives up -/

/-- **C70 fails when the optimiser gives up on a metablock.**  Whatever brotli's encoder is: if in a call of `encode` the
only metablock is one the optimiser gives up on, and brotli took all the input without filling its output, `encode` reports
that it wants more input, as if all were well; none of the bytes have been coded. -/
theorem optimiser_error_unreported (b : Brotli σ) (o : Codec.Opts) (dw : Nat → Nat → Nat → List UInt8) (fuel : Nat) {h : Hy σ}
    (hl : h.lost = false) (inp : List UInt8) (hnf : b.finished h.br = false) {c : Grow.Buf UInt8} {l : List UInt8}
    (hc : Grow.checkout h.scratch (some 256) = some (c, l)) {pm : Codec.PmIn}
    (h1 : (b.stream h.br false inp l.length).blocks = [⟨pm, none⟩]) (h2 : (b.stream h.br false inp l.length).ok = true)
    (h3 : (b.stream h.br false inp l.length).took = inp.length)
    (h4 : (b.stream h.br false inp l.length).wrote.length < l.length)
    (h5 : b.finished (b.stream h.br false inp l.length).st = false) :
    ∃ h', h.encode b o dw fuel inp = some (h', inp.length, .needsInput) ∧ h'.eng = h.eng ∧ h'.data = h.data ∧ h'.lost = true := by
  refine ⟨⟨(b.stream h.br false inp l.length).st, h.eng,
    Grow.commit c (store l (b.stream h.br false inp l.length).wrote) (b.stream h.br false inp l.length).wrote.length, h.data,
    h.offset, true⟩, ?_, rfl, rfl, rfl⟩
  rw [Hy.encode, Hy.stream, if_neg (by rw [hnf]; simp), hc]
  simp only [h1, blocks, hl, Bool.false_eq_true, if_false, Option.map_some, h2, h3, h4, h5, and_self, if_true]
  simp

/-- After that the compressor panics at the next metablock, and when the stream is ended. -/
theorem optimiser_error_then_panic (b : Brotli σ) (o : Codec.Opts) (dw : Nat → Nat → Nat → List UInt8) (fuel : Nat) {h : Hy σ}
    (hl : h.lost = true) (hnf : b.finished h.br = false) {c : Grow.Buf UInt8} {l : List UInt8}
    (hc : Grow.checkout h.scratch (some 256) = some (c, l)) :
    (∀ fin inp, (b.stream h.br fin inp l.length).blocks ≠ [] → h.stream b o dw fuel fin inp = none) ∧
    ((b.stream h.br true [] l.length).ok = true → b.finished (b.stream h.br true [] l.length).st = true →
      h.stream b o dw fuel true [] = none) := by
  have key : ∀ fin inp, (b.stream h.br fin inp l.length).blocks ≠ [] → h.stream b o dw fuel fin inp = none := by
    intro fin inp hb
    rw [Hy.stream, if_neg (by rw [hnf]; simp), hc]
    cases hq : (b.stream h.br fin inp l.length).blocks with
    | nil => exact absurd hq hb
    | cons x xs => simp only [hq, blocks, hl, if_true]
  refine ⟨key, fun hok hfin => ?_⟩
  by_cases hb : (b.stream h.br true [] l.length).blocks = []
  · rw [Hy.stream, if_neg (by rw [hnf]; simp), hc]
    simp only [hb, blocks, hok, hfin, hl]
    simp
  · exact key true [] hb

/-- **C70 fails when the optimiser gives up on the last metablock.**  The first `flush` that gets there reports the failure;
but brotli's stream has ended, and every later `flush` gives out what is in the buffer and reports success, although neither
the metablock nor the end marker is in it. -/
theorem optimiser_error_then_success (b : Brotli σ) (o : Codec.Opts) (dw : Nat → Nat → Nat → List UInt8) (fuel : Nat) {h : Hy σ}
    (hl : h.lost = false) (hoff : h.offset = 0) (hp : h.eng.cmp.progress = 16) (hr : Roomy h.data) (hnf : b.finished h.br = false)
    {c : Grow.Buf UInt8} {l : List UInt8} (hc : Grow.checkout h.scratch (some 256) = some (c, l)) {pm : Codec.PmIn}
    (h1 : (b.stream h.br true [] l.length).blocks = [⟨pm, none⟩]) (h2 : (b.stream h.br true [] l.length).ok = true)
    (h5 : b.finished (b.stream h.br true [] l.length).st = true) (room : Nat) :
    ∃ h', h.flush b o dw (fuel + 1) room = some (h', [], .failure) ∧ h'.data = h.data ∧ h'.eng = h.eng ∧
      ∀ room', (kept h.data).length ≤ room' → ∃ h'', h'.flush b o dw (fuel + 1) room' = some (h'', kept h.data, .success) := by
  obtain ⟨h', hh'⟩ : ∃ h' : Hy σ, h' = ⟨(b.stream h.br true [] l.length).st, h.eng,
    Grow.commit c (store l (b.stream h.br true [] l.length).wrote) (b.stream h.br true [] l.length).wrote.length, h.data,
    h.offset, true⟩ := ⟨_, rfl⟩
  refine ⟨h', ?_, by rw [hh'], by rw [hh'], fun room' hroom => ?_⟩
  · have hst : h.stream b o dw (fuel + 1) true [] = some (h', (b.stream h.br true [] l.length).took, .failure) := by
      rw [Hy.stream, if_neg (by rw [hnf]; simp), hc]
      simp only [h1, blocks, hl, Bool.false_eq_true, if_false, Option.map_some, h2, h5]
      simp [hh']
    rw [Hy.flush, header_noop hp]
    simp only [Hy.ended, hst]
  · have hfin : b.finished h'.br = true := by rw [hh']; exact h5
    have hst : h'.stream b o dw (fuel + 1) true [] = some (h', 0, .success) := by
      rw [Hy.stream, if_pos ⟨rfl, hfin⟩]
    have hp' : h'.eng.cmp.progress = 16 := by rw [hh']; exact hp
    have hd' : h'.data = h.data := by rw [hh']
    have ho' : h'.offset = 0 := by rw [hh']; exact hoff
    refine ⟨{ h' with offset := h'.offset + (kept h.data).length }, ?_⟩
    rw [Hy.flush, header_noop hp']
    have he : Hy.ended b o dw (fuel + 1) (fuel + 1) h' = some (h', true) := by
      simp only [Hy.ended, hst]
    simp only [he]
    have hlen : h.data.size ≤ room' := by rw [← kept_length hr]; exact hroom
    have htake : (kept h.data).take h.data.size = kept h.data := by rw [← kept_length hr, List.take_length]
    simp only [hd', slice_kept hr, ho', List.length_nil, Nat.sub_zero, Nat.not_lt_zero, if_false, List.drop_zero,
      List.nil_append, Nat.zero_add, Grow.len, kept_length hr, Nat.min_eq_left hlen, htake, if_true]

/-! ## The theorems are not vacuous -/

/-- An encoder that hands over every byte as a literal of its own, at once.  With `full`, the first time it is given more than
one byte it takes only one and fills the output, as brotli does when the output of a metablock is larger than its buffer. -/
def toy (full : Bool) : Brotli (Bool × Bool) where
  stream s fin inp room :=
    let slow := full = true ∧ s.1 = true ∧ 2 ≤ inp.length
    ⟨(s.1 && decide (inp.length < 2), fin), if slow then 1 else inp.length, if slow then List.replicate room 0 else [],
      [⟨rawPm, some ((inp.take (if slow then 1 else inp.length)).map fun x => .lit [x] false)⟩], true⟩
  finished s := s.2

/-- The commands of `toy`. -/
def Plain (x : Item) : Prop := x = .pm rawPm ∨ ∃ v, x = .lit [v] false

theorem plain_history (dw : Nat → Nat → Nat → List UInt8) : ∀ (xs : List Item) (n : Nat), (∀ x ∈ xs, Plain x) →
    Recode.InHistory n (xs.map (Item.ringCmd dw)) := by
  intro xs
  induction xs with
  | nil => intro n _; trivial
  | cons x xs ih =>
    intro n h
    rcases h x (by simp) with rfl | ⟨v, rfl⟩
    · exact ih _ fun x hx => h x (by simp [hx])
    · exact ih _ fun x hx => h x (by simp [hx])

theorem original_lits (dw : Nat → Nat → Nat → List UInt8) (xs : List Item) (bs : List UInt8) :
    original dw (xs ++ (.pm rawPm :: bs.map fun v => .lit [v] false)) = original dw xs ++ bs := by
  have : ∀ (bs : List UInt8) (h : List UInt8),
      ((bs.map fun v => Item.lit [v] false).map (Item.ringCmd dw)).foldl Recode.applyCmd h = h ++ bs := by
    intro bs
    induction bs with
    | nil => intro h; simp
    | cons v bs ih =>
      intro h
      simp only [List.map_cons, List.foldl_cons, Item.ringCmd, Recode.applyCmd, List.map_map] at ih ⊢
      rw [ih, List.append_assoc]
      rfl
  unfold original Recode.lz77 Recode.expand
  rw [List.map_append, List.foldl_append, List.map_cons, List.foldl_cons]
  exact this bs _

/-- The states of `toy`. -/
def toyInv (dw : Nat → Nat → Nat → List UInt8) (fin : Bool) (s : Bool × Bool) (bytes : List UInt8) (xs : List Item) : Prop :=
  (∀ x ∈ xs, Plain x) ∧ original dw xs = bytes ∧ (fin = false → s.2 = false)

theorem toy_step {dw : Nat → Nat → Nat → List UInt8} {full fin fin' : Bool} {s : Bool × Bool} {bytes : List UInt8} {xs : List Item}
    (h : toyInv dw fin s bytes xs) (inp : List UInt8) (room : Nat) :
    toyInv dw fin' ((toy full).stream s fin' inp room).st (bytes ++ inp.take ((toy full).stream s fin' inp room).took)
      (xs ++ items ((toy full).stream s fin' inp room).blocks) := by
  obtain ⟨h1, h2, h3⟩ := h
  have hit : items ((toy full).stream s fin' inp room).blocks =
      .pm rawPm :: (inp.take ((toy full).stream s fin' inp room).took).map fun v => .lit [v] false := by
    simp [items, toy]
  refine ⟨?_, ?_, fun hf => hf⟩
  · intro x hx
    rw [hit] at hx
    rcases List.mem_append.1 hx with hx | hx
    · exact h1 x hx
    · rcases List.mem_cons.1 hx with rfl | hx
      · exact .inl rfl
      · obtain ⟨v, -, rfl⟩ := List.mem_map.1 hx
        exact .inr ⟨v, rfl⟩
  · rw [hit, original_lits, h2]

/-- `toy` keeps the contract. -/
theorem toy_meets (full : Bool) {g : Cfg} (hpm : (Item.pm rawPm).Valid g.o g.dw g.ring) :
    Meets (toy full) g (toyInv g.dw) (fun _ => 0) where
  unfinished s bytes xs h := h.2.2 rfl
  valid fin s bytes xs h x hx := by
    rcases h.1 x hx with rfl | ⟨v, rfl⟩
    · exact hpm
    · exact ⟨⟨by simp, by simp⟩, trivial, fun p hp => by cases hp⟩
  process s bytes xs inp room h hroom := by
    refine ⟨rfl, ?_, ?_, ?_, toy_step h inp room, ?_, ?_⟩
    · show (if _ then 1 else inp.length) ≤ _
      split
      · rename_i hs; omega
      · exact Nat.le_refl _
    · show (if _ then List.replicate room 0 else ([] : List UInt8)).length ≤ _
      split
      · rw [List.length_replicate]
      · exact Nat.zero_le _
    · intro x hx
      simp only [toy, List.mem_singleton] at hx
      rw [hx]
      simp
    · show (if _ then 1 else inp.length) < _ → (if _ then List.replicate room 0 else ([] : List UInt8)).length = _
      split
      · rw [List.length_replicate]; exact fun _ => rfl
      · intro h; exact absurd h (Nat.lt_irrefl _)
    · show (if _ then 1 else inp.length) = 0 → _
      split
      · intro h; cases h
      · intro h h'; exact absurd (List.eq_nil_of_length_eq_zero h) h'
  finish fin s bytes xs room h hnf hroom := by
    have hst := toy_step (full := full) (fin' := true) h [] room
    rw [List.take_nil, List.append_nil] at hst
    refine ⟨rfl, ?_, ?_, ?_, hst, fun hf => ?_⟩
    · simp [toy]
    · simp [toy]
    · intro x hx
      simp only [toy, List.mem_singleton] at hx
      rw [hx]
      simp
    · simp [toy] at hf
  stands fin s bytes xs h _ := ⟨plain_history _ xs 0 h.1, h.2.1⟩

/-- The hypotheses of `hybrid_round_trip_partial` and `hybrid_ends_partial` are met. -/
example : Meets (toy true) ⟨Codec.demoOpts, demoWords, some 12⟩ (toyInv demoWords) (fun _ => 0) ∧
    toyInv demoWords false (true, false) [] [] :=
  ⟨toy_meets true (rawPm_valid rfl (by decide) (by decide) _ _), by simp, rfl, fun _ => rfl⟩

/-- An encoder whose metablocks the optimiser gives up on. -/
def sulk : Brotli Bool where
  stream _ fin inp _ := ⟨fin, inp.length, [], [⟨rawPm, none⟩], true⟩
  finished s := s

/-- The hypotheses of the theorems about the optimiser are met by a new compressor (with its header written for the last). -/
example (window : Option Int) (inp : List UInt8) : ∃ c l,
    Grow.checkout (Hy.new window false).scratch (some 256) = some (c, l) ∧
    (sulk.stream false false inp l.length).blocks = [⟨rawPm, none⟩] ∧ (sulk.stream false false inp l.length).ok = true ∧
    (sulk.stream false false inp l.length).took = inp.length ∧ (sulk.stream false false inp l.length).wrote.length < l.length ∧
    sulk.finished (sulk.stream false false inp l.length).st = false ∧
    sulk.finished (sulk.stream false true [] l.length).st = true := by
  obtain ⟨c, l, h1, h2, -⟩ := use_spec (d := Grow.new) roomy_new (m := 256) (by omega)
  exact ⟨c, l, h1, rfl, rfl, rfl, by show 0 < l.length; omega, rfl, rfl⟩

end Divans.Hybrid
