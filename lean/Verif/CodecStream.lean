import Verif.CodecPm

/-!
# Streams of commands

One command after another: the invariant both sides keep and the effect of a command on it.
-/

namespace Divans.Codec
open Divans.Num Divans.Cdf

/-! ## What a command means -/

/-- Commands that can be sent.  Distances of 2^30 and more, empty literals and the like have no
representation in the format. -/
def Head.Valid (o : Opts) : Head → Prop
  | .copy d n => 0 < d ∧ d < 2 ^ 30 ∧ n < 2 ^ 32
  | .dict z i t => 4 ≤ z ∧ z ≤ 24 ∧ i < 2 ^ dictIndexBits z ∧ t ≤ 120
  | .lit n _ => 1 ≤ n ∧ n < 15 + 2 ^ 30
  | .bswitch k _ st => k = .lit → strideOffer o st < 16
  | .pm c => ∃ w, c.Valid o w

/-- What the receiver is to have after a command, given the previous contents of its prediction mode
buffer. -/
def Head.result (o : Opts) (p : Pm) : Head → Got
  | .copy d n => .copy d n
  | .dict z i t => .dict z i t
  | .lit n e => .lit n e
  | .bswitch k t st => .bswitch k t (strideGot o k st)
  | .pm c => .pm (pmGot o c ((wantedSpeeds o c).getD []) p)

/-- The bookkeeping after a command. -/
def Head.bkAfter (o : Opts) (b : Bk) : Head → Bk
  | .copy d n =>
    { obsState b 64 with lastClen := bitLen n, lastDlen := bitLen d, dist := obsDistance b.dist d }
  | .dict _ _ _ => obsState b 192
  | .lit n _ => { obsState b 128 with lastLlen := llenAfter b.lastLlen n }
  | .bswitch k t _ => obsBtype b k t
  | .pm c => pmBk o c b

/-- The prediction mode buffer after a command. -/
def Head.pmAfter (o : Opts) (p : Pm) : Head → Pm
  | .pm c => pmGot o c ((wantedSpeeds o c).getD []) p
  | _ => p

/-- Between commands, with all sizes and ranges as they should be. -/
structure CoreOk (c : Core) : Prop where
  bk : BkOk c.bk
  pm : PmOk c.pm
  at_ : c.at_ = .begin

theorem coreOk_init : CoreOk Core.init := ⟨bkOk_init, pmOk_init, rfl⟩

/-- The state after a command. -/
def Head.after (o : Opts) (c : Core) (h : Head) : Core := ⟨h.bkAfter o c.bk, h.pmAfter o c.pm, .begin⟩

/-! ## The invariant is kept -/

theorem or_lt256 {a m : Nat} (ha : a < 256) (hm : m < 256) : (a / 4) ||| m < 256 :=
  Nat.or_lt_two_pow (n := 8) (by omega) hm

theorem bkOk_obsState {b : Bk} (h : BkOk b) {m : Nat} (hm : m < 256) : BkOk (obsState b m) :=
  ⟨h.map, h.cmap, h.llen, or_lt256 h.last4 hm, h.l0, h.l1, h.l2, h.l3⟩

theorem bkOk_obsBtype {b : Bk} (h : BkOk b) (k : Switch) (t : UInt8) : BkOk (obsBtype b k t) := by
  have h4 : b.last4 / 4 < 256 := by
    have := h.last4
    omega
  cases k <;> exact ⟨h.map, h.cmap, h.llen, h4, h.l0, h.l1, h.l2, h.l3⟩

theorem obsDistance_lt {l : Lru4} {d : Nat} (h0 : l.d0 < 2 ^ 30) (h1 : l.d1 < 2 ^ 30) (h2 : l.d2 < 2 ^ 30)
    (h3 : l.d3 < 2 ^ 30) (hd : d < 2 ^ 30) :
    (obsDistance l d).d0 < 2 ^ 30 ∧ (obsDistance l d).d1 < 2 ^ 30 ∧ (obsDistance l d).d2 < 2 ^ 30 ∧
      (obsDistance l d).d3 < 2 ^ 30 := by
  unfold obsDistance
  split_ifs <;> simp only [h0, h1, h2, h3, hd, and_self]

theorem llenAfter_pos {a n : Nat} (ha : 1 ≤ a) (hn : 1 ≤ n) : 1 ≤ llenAfter a n := by
  unfold llenAfter
  split <;> assumption

theorem sentMap_dist_le {o : Opts} {c : PmIn} {w : List Speed} (hv : c.Valid o w) :
    (sentMap o c .dist).length ≤ 1024 := by
  simp only [sentMap, cmdMap]
  have := hv.dist
  split
  · split
    · exact this
    · simp
  · simp

theorem sentMap_lit_le {o : Opts} {c : PmIn} {w : List Speed} (hv : c.Valid o w) :
    (sentMap o c .lit).length ≤ 16384 := by
  simp only [sentMap, cmdMap]
  have := hv.lit
  split
  · exact this
  · simp

theorem bkOk_pmBk {o : Opts} {c : PmIn} {w : List Speed} (hv : c.Valid o w) {b : Bk} (h : BkOk b) :
    BkOk (pmBk o c b) := by
  refine ⟨?_, ?_, h.llen, h.last4, h.l0, h.l1, h.l2, h.l3⟩
  · simp only [pmBk]
    rw [overlay_length]
    · rw [List.length_map, List.length_range]
    · rw [List.length_map, List.length_range]
      exact sentMap_dist_le hv
  · simp only [pmBk]
    rw [touch_foldl_length _ _ (by decide), List.length_map, List.length_range]

theorem pmOk_pmGot {o : Opts} {c : PmIn} {w w' : List Speed} (hv : c.Valid o w) {p : Pm} (h : PmOk p) :
    PmOk (pmGot o c w' p) := by
  refine ⟨?_, ?_, ?_⟩
  · simp only [pmGot]
    rw [overlay_length (by rw [h.lit]; exact sentMap_lit_le hv), h.lit]
  · simp only [pmGot]
    rw [overlay_length (by rw [h.dist]; exact sentMap_dist_le hv), h.dist]
  · simp only [pmGot]
    rw [List.length_map, List.length_range]

theorem after_coreOk {o : Opts} {c : Core} {h : Head} (hc : CoreOk c) (hv : h.Valid o) :
    CoreOk (h.after o c) := by
  cases h with
  | copy d n =>
    have hb := bkOk_obsState hc.bk (m := 64) (by decide)
    obtain ⟨a0, a1, a2, a3⟩ := obsDistance_lt hc.bk.l0 hc.bk.l1 hc.bk.l2 hc.bk.l3 hv.2.1
    exact ⟨⟨hb.map, hb.cmap, hb.llen, hb.last4, a0, a1, a2, a3⟩, hc.pm, rfl⟩
  | dict z i t => exact ⟨bkOk_obsState hc.bk (by decide), hc.pm, rfl⟩
  | lit n e =>
    have hb := bkOk_obsState hc.bk (m := 128) (by decide)
    exact ⟨⟨hb.map, hb.cmap, llenAfter_pos hc.bk.llen hv.1, hb.last4, hb.l0, hb.l1, hb.l2, hb.l3⟩,
      hc.pm, rfl⟩
  | bswitch k t st => exact ⟨bkOk_obsBtype hc.bk k t, hc.pm, rfl⟩
  | pm p =>
    obtain ⟨w, hw⟩ := hv
    exact ⟨bkOk_pmBk hw hc.bk, pmOk_pmGot hw hc.pm, rfl⟩

/-! ## One command -/

theorem begin_ask {c : Core} (hc : CoreOk c) : ∃ a, coreAsk c = some a := by
  have h4 := hc.bk.last4
  simp only [coreAsk, hc.at_]
  exact ask_cc (by omega) _

theorem nibble_lt (h : Head) : h.nibble < 16 := by
  cases h with
  | bswitch k t st => cases k <;> simp [Head.nibble]
  | _ => simp [Head.nibble]

/-- Every valid command is sent, and what is sent is the command. -/
theorem emits_command {o : Opts} {c : Core} {h : Head} (hc : CoreOk c) (hv : h.Valid o) :
    ∃ ns, Emits o h c ns (h.after o c) (h.result o c.pm) := by
  obtain ⟨a, ha⟩ := begin_ask hc
  obtain ⟨b, p, at_⟩ := c
  obtain ⟨hb, hp, hat⟩ := hc
  simp only at hat hb hp
  subst hat
  cases h with
  | copy d n =>
    obtain ⟨h1, h2, h3⟩ := hv
    obtain ⟨ns, hr⟩ := copy_run (by omega) h2 h3 (bkOk_obsState hb (m := 64) (by decide))
    exact ⟨_, .more a ha rfl (nibble_lt _) rfl
      (emits_of_copyRun p hr (by simp [CopySt.begin]) rfl)⟩
  | dict z i t =>
    obtain ⟨h1, h2, h3, h4⟩ := hv
    obtain ⟨ns, hr⟩ := dict_run (bkOk_obsState hb (m := 192) (by decide)) h1 h2 h3 h4
    exact ⟨_, .more a ha rfl (nibble_lt _) rfl
      (emits_of_dictRun p hr (by simp [DictSt.begin]) rfl)⟩
  | lit n e =>
    obtain ⟨ns, hr⟩ := lit_run (b := obsState b 128) (e := e) hv.1 hv.2
    exact ⟨_, .more a ha rfl (nibble_lt _) rfl
      (emits_of_litRun p hr (by simp [LitSt.begin]) rfl)⟩
  | bswitch k t st =>
    obtain ⟨ns, hr⟩ := bs_run (b := b) (o := o) (k := k) (t := t) (stride := st) hv
    have he := emits_of_bsRun p hr (by simp) rfl
    cases k with
    | lit => exact ⟨_, .more a ha rfl (nibble_lt _) rfl he⟩
    | cmd => exact ⟨_, .more a ha rfl (nibble_lt _) rfl he⟩
    | dist => exact ⟨_, .more a ha rfl (nibble_lt _) rfl he⟩
  | pm q =>
    obtain ⟨w, hw⟩ := hv
    obtain ⟨ns, hr⟩ := pm_run hw hb hp
    have he := emits_of_pmRun hr (by simp) rfl
    have hres : (Head.pm q).result o p = .pm (pmGot o q w p) := by
      simp [Head.result, hw.speeds]
    have haft : (Head.pm q).after o ⟨b, p, .begin⟩ = ⟨pmBk o q b, pmGot o q w p, .begin⟩ := by
      simp [Head.after, Head.bkAfter, Head.pmAfter, hw.speeds]
    simp only [hres, haft]
    exact ⟨_, .more a ha rfl (nibble_lt _) rfl he⟩

/-! ## Many commands -/

/-- State after a list of commands. -/
def afterAll (o : Opts) (c : Core) (hs : List Head) : Core := hs.foldl (Head.after o) c

/-- What the receiver is to have after a list of commands. -/
def resultAll (o : Opts) : Core → List Head → List Got
  | _, [] => []
  | c, h :: t => h.result o c.pm :: resultAll o (h.after o c) t

theorem afterAll_coreOk {o : Opts} : ∀ {hs : List Head} {c : Core}, CoreOk c → (∀ h ∈ hs, h.Valid o) →
    CoreOk (afterAll o c hs) := by
  intro hs
  induction hs with
  | nil => intro c hc _; exact hc
  | cons h t ih =>
    intro c hc hv
    exact ih (after_coreOk hc (hv h (by simp))) fun x hx => hv x (by simp [hx])

/-! ## The models used -/

/-- The models and speeds of a nibble sequence, as the receiver determines them. -/
def asksAlong : Core → List Nat → List (Option Ask)
  | _, [] => []
  | c, n :: t =>
    coreAsk c ::
      (match coreTake c n with
        | .ok r => asksAlong r.1 t
        | _ => [])

theorem encStep_ok {o : Opts} {h : Head} {c c' : Core} {y : Sym} {g : Option Got}
    (he : encStep o h c = .ok (y, c', g)) : coreAsk c = some y.ask ∧ coreTake c y.nib = .ok (c', g) ∧
      y.nib < 16 := by
  unfold encStep at he
  cases ha : coreAsk c with
  | none => simp [ha] at he
  | some a =>
    simp only [ha] at he
    cases hoff : coreOffer o h c with
    | fail => simp [hoff, Res.bind] at he
    | panic => simp [hoff, Res.bind] at he
    | ok n =>
      simp only [hoff, Res.bind] at he
      by_cases hn : n < 16
      · rw [if_pos hn] at he
        cases ht : coreTake c n with
        | fail => simp [ht] at he
        | panic => simp [ht] at he
        | ok r =>
          simp only [ht, Res.ok.injEq, Prod.mk.injEq] at he
          obtain ⟨rfl, rfl, rfl⟩ := he
          exact ⟨rfl, ht, hn⟩
      · simp [hn] at he

theorem encCmd_asks {o : Opts} {h : Head} : ∀ (fuel : Nat) {c c' : Core} {ys : List Sym} {g : Got},
    encCmd o h fuel c = some (.ok (ys, c', g)) → ∀ rest : List Nat,
      asksAlong c (ys.map Sym.nib ++ rest) = ys.map (fun y => some y.ask) ++ asksAlong c' rest := by
  intro fuel
  induction fuel with
  | zero => intro c c' ys g he; simp [encCmd] at he
  | succ f ih =>
    intro c c' ys g he rest
    rw [encCmd] at he
    cases hs : encStep o h c with
    | fail => simp [hs] at he
    | panic => simp [hs] at he
    | ok r =>
      obtain ⟨y, c1, g1⟩ := r
      obtain ⟨ha, ht, _⟩ := encStep_ok hs
      rw [hs] at he
      cases g1 with
      | some g' =>
        simp only [Option.some.injEq, Res.ok.injEq, Prod.mk.injEq] at he
        obtain ⟨rfl, rfl, rfl⟩ := he
        simp [asksAlong, ha, ht]
      | none =>
        simp only at he
        cases hr : encCmd o h f c1 with
        | none => simp [hr] at he
        | some q =>
          cases q with
          | fail => simp [hr, Res.bind] at he
          | panic => simp [hr, Res.bind] at he
          | ok q =>
            obtain ⟨ys', c2, g2⟩ := q
            simp only [hr, Option.map_some, Res.bind, Option.some.injEq, Res.ok.injEq,
              Prod.mk.injEq] at he
            obtain ⟨rfl, rfl, rfl⟩ := he
            simp [asksAlong, ha, ht, ih hr rest]

end Divans.Codec
