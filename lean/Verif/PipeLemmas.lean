import Verif.Pipe
import Verif.LitProps
import Verif.RecodeProps
import Verif.CodecProps

/-!
# Compressor and decompressor around the two streams: the invariant
-/

namespace Divans.Pipe
open Divans.Adaptive

/-! ## What a stream of nibbles will do to the receiver -/

/-- The command decoder in state `c`, fed with the nibbles of `tr`, asks for each in the way `tr`
says, completes the commands `gs`, and stops at the end. -/
inductive Plays : Codec.Core → Trace Codec.Key Unit → List Codec.Got → Prop where
  | stop {c : Codec.Core} : c.at_ = .stop → Plays c [] []
  | more {c c' : Codec.Core} {a : Codec.Ask} {n : Nat} {tr : Trace Codec.Key Unit}
      {gs : List Codec.Got} : Codec.coreAsk c = some a → Codec.coreTake c n = .ok (c', none) →
      Plays c' tr gs → Plays c ((.plain a.key (some a.speed), n) :: tr) gs
  | got {c c' : Codec.Core} {a : Codec.Ask} {n : Nat} {tr : Trace Codec.Key Unit} {g : Codec.Got}
      {gs : List Codec.Got} : Codec.coreAsk c = some a → Codec.coreTake c n = .ok (c', some g) →
      Plays c' tr gs → Plays c ((.plain a.key (some a.speed), n) :: tr) (g :: gs)

theorem not_stop {c : Codec.Core} {a : Codec.Ask} (h : Codec.coreAsk c = some a) : c.at_ ≠ .stop := by
  intro hs
  simp [Codec.coreAsk, hs] at h

/-- The nibbles of one command in front. -/
theorem plays_of_encCmd {o : Codec.Opts} {h : Codec.Head} : ∀ (fuel : Nat) {c c' : Codec.Core}
    {ys : List Codec.Sym} {g : Codec.Got}, Codec.encCmd o h fuel c = some (.ok (ys, c', g)) →
    ∀ {tr : Trace Codec.Key Unit} {gs : List Codec.Got}, Plays c' tr gs →
      Plays c (symTrace ys ++ tr) (g :: gs) := by
  intro fuel
  induction fuel with
  | zero => intro c c' ys g he; simp [Codec.encCmd] at he
  | succ f ih =>
    intro c c' ys g he tr gs hp
    rw [Codec.encCmd] at he
    cases hs : Codec.encStep o h c with
    | fail => simp [hs] at he
    | panic => simp [hs] at he
    | ok r =>
      obtain ⟨y, c1, g1⟩ := r
      obtain ⟨ha, ht, _⟩ := Codec.encStep_ok hs
      rw [hs] at he
      cases g1 with
      | some g' =>
        simp only [Option.some.injEq, Codec.Res.ok.injEq, Prod.mk.injEq] at he
        obtain ⟨rfl, rfl, rfl⟩ := he
        exact .got ha ht hp
      | none =>
        simp only at he
        cases hr : Codec.encCmd o h f c1 with
        | none => simp [hr] at he
        | some q =>
          cases q with
          | fail => simp [hr, Codec.Res.bind] at he
          | panic => simp [hr, Codec.Res.bind] at he
          | ok q =>
            obtain ⟨ys', c2, g2⟩ := q
            simp only [hr, Option.map_some, Codec.Res.bind, Option.some.injEq, Codec.Res.ok.injEq,
              Prod.mk.injEq] at he
            obtain ⟨rfl, rfl, rfl⟩ := he
            exact .more ha ht (ih hr hp)

/-- The main side with bookkeeping `l` and history `H` (initial ring contents included), given the
commands `gs` and the nibbles `tr` of the literal stream, ends with history `F`. -/
inductive LPlays (dw : Nat → Nat → Nat → List UInt8) (L : Nat) :
    Lit.Lbk → List UInt8 → List Codec.Got → Trace Lit.Key Bool → List UInt8 → Prop where
  | nil {l : Lit.Lbk} {H : List UInt8} : LPlays dw L l H [] [] H
  | copy {l : Lit.Lbk} {H F : List UInt8} {d n : Nat} {gs : List Codec.Got} {tr : Trace Lit.Key Bool} :
      Recode.Valid L (.copy d n) → LPlays dw L l (Recode.applyCmd H (.copy d n)) gs tr F →
      LPlays dw L l H (.copy d n :: gs) tr F
  | dict {l : Lit.Lbk} {H F : List UInt8} {z i t : Nat} {gs : List Codec.Got}
      {tr : Trace Lit.Key Bool} : Recode.Valid L (.dict (dw z i t) (dw z i t).length) →
      LPlays dw L l (Recode.applyCmd H (.dict (dw z i t) (dw z i t).length)) gs tr F →
      LPlays dw L l H (.dict z i t :: gs) tr F
  | lit {l l' : Lit.Lbk} {H F data : List UInt8} {e : Bool} {gs : List Codec.Got}
      {tr tr' : Trace Lit.Key Bool} : data ≠ [] →
      Lit.sendBytes { l with last8 := Lit.pack8 (Recode.contextOf L H) } data = some (tr, l') →
      LPlays dw L l' (H ++ data) gs tr' F → LPlays dw L l H (.lit data.length e :: gs) (tr ++ tr') F
  | bswitch {l : Lit.Lbk} {H F : List UInt8} {t : UInt8} {st : Nat} {gs : List Codec.Got}
      {tr : Trace Lit.Key Bool} : LPlays dw L (l.obsBtype t) H gs tr F →
      LPlays dw L l H (.bswitch .lit t st :: gs) tr F
  | pm {l l' : Lit.Lbk} {H F : List UInt8} {p : Codec.Pm} {gs : List Codec.Got}
      {tr : Trace Lit.Key Bool} : l.obsPm p = .ok l' → LPlays dw L l' H gs tr F →
      LPlays dw L l H (.pm p :: gs) tr F

/-- The history only grows. -/
theorem applyCmd_ext (h : List UInt8) (c : Recode.Cmd) : ∃ t, Recode.applyCmd h c = h ++ t := by
  have := Recode.part_prefix h c 0 (Recode.subOk_zero c)
  rw [Recode.part_zero] at this
  exact this

theorem LPlays.ext {dw : Nat → Nat → Nat → List UInt8} {L : Nat} {l : Lit.Lbk} {H F : List UInt8}
    {gs : List Codec.Got} {tr : Trace Lit.Key Bool} (h : LPlays dw L l H gs tr F) : ∃ t, F = H ++ t := by
  induction h with
  | nil => exact ⟨[], by simp⟩
  | copy _ _ ih =>
    obtain ⟨t, rfl⟩ := ih
    obtain ⟨u, hu⟩ := applyCmd_ext _ _
    exact ⟨_, by rw [hu, List.append_assoc]⟩
  | dict _ _ ih =>
    obtain ⟨t, rfl⟩ := ih
    obtain ⟨u, hu⟩ := applyCmd_ext _ _
    exact ⟨_, by rw [hu, List.append_assoc]⟩
  | lit _ _ _ ih =>
    obtain ⟨t, rfl⟩ := ih
    exact ⟨_, by rw [List.append_assoc]⟩
  | bswitch _ ih => exact ih
  | pm _ _ ih => exact ih

theorem obsPm_last8 {l l' : Lit.Lbk} {p : Codec.Pm} (n : Nat) (h : l.obsPm p = .ok l') :
    ({ l with last8 := n } : Lit.Lbk).obsPm p = .ok { l' with last8 := n } := by
  unfold Lit.Lbk.obsPm at h ⊢
  by_cases hm : 3 < p.mode
  · rw [if_pos hm] at h; cases h
  · rw [if_neg hm] at h ⊢
    cases hs : p.speeds.mapM Lit.speedOf with
    | none => rw [hs] at h; cases h
    | some a =>
      rw [hs] at h
      simp only at h ⊢
      by_cases hl : p.litMap.length = 16384 ∧ p.mixing.length = 8192
      · rw [if_pos hl] at h ⊢
        simp only [Codec.Res.ok.injEq] at h
        rw [← h]
      · rw [if_neg hl] at h; cases h

/-- The main side takes the last bytes from the recoder at each literal, so the bookkeeping's own
record of them does not matter between commands. -/
theorem LPlays.last8 {dw : Nat → Nat → Nat → List UInt8} {L : Nat} {l : Lit.Lbk} {H F : List UInt8}
    {gs : List Codec.Got} {tr : Trace Lit.Key Bool} (h : LPlays dw L l H gs tr F) (n : Nat) :
    LPlays dw L { l with last8 := n } H gs tr F := by
  induction h with
  | nil => exact .nil
  | copy hv _ ih => exact .copy hv ih
  | dict hv _ ih => exact .dict hv ih
  | lit hne hs hp _ => exact .lit hne hs hp
  | bswitch _ ih => exact .bswitch ih
  | pm hp _ ih => exact .pm (obsPm_last8 n hp) ih

theorem Plays.traceOk {c : Codec.Core} {tr : Trace Codec.Key Unit} {gs : List Codec.Got}
    (h : Plays c tr gs) : (∀ x ∈ tr, x.2 < 16) → Trace.Ok tr := by
  induction h with
  | stop _ => intro _ x hx; simp at hx
  | more ha _ _ ih =>
    intro hn x hx
    rcases List.mem_cons.1 hx with rfl | hx
    · exact ⟨by simpa [Choice.Safe] using Codec.ask_safe ha, hn _ (by simp)⟩
    · exact ih (fun y hy => hn y (by simp [hy])) x hx
  | got ha _ _ ih =>
    intro hn x hx
    rcases List.mem_cons.1 hx with rfl | hx
    · exact ⟨by simpa [Choice.Safe] using Codec.ask_safe ha, hn _ (by simp)⟩
    · exact ih (fun y hy => hn y (by simp [hy])) x hx

/-! ## The compressor -/

/-- The speeds of a prediction mode command are safe for the counters when they arrive. -/
def SpeedsSafe (o : Codec.Opts) (p : Codec.PmIn) : Prop :=
  ∀ w, Codec.wantedSpeeds o p = some w →
    ∀ sp ∈ w, ∃ s, Lit.speedOf (Codec.speedArrives sp) = some s ∧ Cdf.SafeSpeed s

/-- Commands that can be sent and carried out with a ring of `L` bytes. -/
structure Item.Valid (o : Codec.Opts) (dw : Nat → Nat → Nat → List UInt8) (L : Nat) (x : Item) : Prop where
  head : x.head.Valid o
  ring : Recode.Valid L (x.ringCmd dw)
  speeds : ∀ p, x = .pm p → SpeedsSafe o p

/-- The compressor's recoder takes every valid command. -/
theorem pump_spec {L : Nat} (hL : 1 < L) {room : Nat} (hroom : 0 < room) {c : Recode.Cmd}
    (hv : Recode.Valid L c) (h : List UInt8) : ∀ (k : Nat) (s : Recode.St) (E : List UInt8),
    (Recode.applyCmd h c).length ≤ E.length + k →
    Recode.Inv L s E (Recode.part h c s.sub) → Recode.SubOk c s.sub →
    ∃ fuel0 s' E', (∀ fuel, fuel0 ≤ fuel → pump room c fuel s = some (.ok s')) ∧ s'.sub = 0 ∧
      Recode.Inv L s' E' (Recode.applyCmd h c) := by
  intro k
  induction k with
  | zero =>
    intro s E hk i hs
    obtain ⟨s', o, r, he, hc⟩ := Recode.encodeCmd_spec L hL c hv h s E room i hs
    rcases hc.cases with ⟨rfl, h1, h2⟩ | ⟨rfl, h1, h2, h3⟩
    · refine ⟨1, s', E ++ o, ?_, h1, h2⟩
      intro fuel hf
      obtain ⟨f, rfl⟩ : ∃ f, fuel = f + 1 := ⟨fuel - 1, by omega⟩
      rw [pump, he]
    · exfalso
      have hp := (h3.prefix (Recode.part_prefix h c s'.sub h2)).length_le
      simp only [List.length_append, List.length_drop] at hp
      have := h3.hist.long
      rw [h3.len] at this
      obtain ⟨t, ht⟩ := Recode.part_prefix h c s'.sub h2
      rw [ht] at hk hp
      simp only [List.length_append] at hk hp
      omega
  | succ k ih =>
    intro s E hk i hs
    obtain ⟨s', o, r, he, hc⟩ := Recode.encodeCmd_spec L hL c hv h s E room i hs
    rcases hc.cases with ⟨rfl, h1, h2⟩ | ⟨rfl, h1, h2, h3⟩
    · refine ⟨1, s', E ++ o, ?_, h1, h2⟩
      intro fuel hf
      obtain ⟨f, rfl⟩ : ∃ f, fuel = f + 1 := ⟨fuel - 1, by omega⟩
      rw [pump, he]
    · obtain ⟨f0, s2, E2, h4, h5, h6⟩ := ih s' (E ++ o) (by rw [List.length_append]; omega) h3 h2
      refine ⟨f0 + 1, s2, E2, ?_, h5, h6⟩
      intro fuel hf
      obtain ⟨f, rfl⟩ : ∃ f, fuel = f + 1 := ⟨fuel - 1, by omega⟩
      rw [pump, he]
      exact h4 f (by omega)

/-- The states of the compressor between commands: `H` is what has been compressed so far. -/
structure SndOk (L : Nat) (H : List UInt8) (s : Snd) : Prop where
  core : Codec.CoreOk s.core
  lbk : s.lbk.Ok
  ring : ∃ E, Recode.Inv L s.ring E H
  sub : s.ring.sub = 0
  last : s.lbk.last8 = Lit.pack8 (Recode.contextOf L H)

theorem populate_spec {L : Nat} (hL : 8 ≤ L) {room : Nat} (hroom : 0 < room) {c : Recode.Cmd}
    (hv : Recode.Valid L c) {H : List UInt8} {s : Snd} (hc : Codec.CoreOk s.core) (hl : s.lbk.Ok)
    (hr : ∃ E, Recode.Inv L s.ring E H) (hs : s.ring.sub = 0) :
    ∃ fuel0 s', (∀ fuel, fuel0 ≤ fuel → Snd.populate room fuel s c = some (.ok s')) ∧
      SndOk L (Recode.applyCmd H c) s' ∧ s'.core = s.core ∧
      s'.lbk = { s.lbk with last8 := Lit.pack8 (Recode.contextOf L (Recode.applyCmd H c)) } := by
  obtain ⟨E, i⟩ := hr
  obtain ⟨f0, ring', E', h1, h2, h3⟩ := pump_spec (by omega) hroom hv H (Recode.applyCmd H c).length
    s.ring E (by omega) (by rw [hs, Recode.part_zero]; exact i) (by rw [hs]; exact Recode.subOk_zero c)
  have h8 := Recode.context_from_history h3 hL
  refine ⟨f0, ⟨s.core, { s.lbk with last8 := Lit.pack8 (Recode.contextOf L (Recode.applyCmd H c)) }, ring'⟩,
    ?_, ⟨hc, Lit.last8_ok hl _, ⟨E', h3⟩, h2, rfl⟩, rfl, rfl⟩
  intro fuel hf
  rw [Snd.populate, h1 fuel hf]
  simp only [Option.map_some, Codec.Res.bind, h8]

theorem pmGot_observed {o : Codec.Opts} {p : Codec.PmIn} (hv : (Codec.Head.pm p).Valid o)
    (hs : SpeedsSafe o p) {q : Codec.Pm} (hq : Codec.PmOk q) {l : Lit.Lbk} :
    ∃ l', l.obsPm (Codec.pmGot o p ((Codec.wantedSpeeds o p).getD []) q) = .ok l' ∧ l'.Ok ∧
      l'.last8 = l.last8 := by
  obtain ⟨w, hw⟩ := hv
  rw [hw.speeds, Option.getD_some]
  obtain ⟨a, b, c, d, rfl⟩ := Codec.wantedSpeeds_four hw.speeds
  have hok := Codec.pmOk_pmGot (w' := [a, b, c, d]) hw hq
  apply Lit.obsPm_ok
  · exact hw.mode
  · exact hok.lit
  · exact hok.mix
  · rfl
  · intro f hf
    obtain ⟨sp, hsp, rfl⟩ := List.mem_map.1 hf
    exact hs _ hw.speeds sp hsp

/-- One command is sent, whatever the history. -/
theorem item_spec {o : Codec.Opts} {dw : Nat → Nat → Nat → List UInt8} {L : Nat} (hL : 8 ≤ L) {room : Nat}
    (hroom : 0 < room) {x : Item} (hv : x.Valid o dw L) {H : List UInt8} {s : Snd} (h : SndOk L H s) :
    ∃ fuel0 ys tl s', (∀ fuel, fuel0 ≤ fuel → Snd.item o dw room fuel s x = some (.ok (symTrace ys, tl, s'))) ∧
      (∀ y ∈ ys, y.nib < 16) ∧ Trace.Ok tl ∧
      SndOk L (Recode.applyCmd H (x.ringCmd dw)) s' ∧ s'.core = x.head.after o s.core ∧
      (∀ {tr gs}, Plays s'.core tr gs →
        Plays s.core (symTrace ys ++ tr) (x.head.result o s.core.pm :: gs)) ∧
      (∀ {tr gs F}, LPlays dw L s'.lbk (Recode.applyCmd H (x.ringCmd dw)) gs tr F →
        LPlays dw L s.lbk H ([x.head.result o s.core.pm].filter forwarded ++ gs) (tl ++ tr) F) := by
  obtain ⟨ys, henc, hnib, -⟩ := Codec.command_round_trip h.core hv.head
  have hcore := Codec.after_coreOk h.core hv.head
  -- it is enough to look at what happens besides the command stream
  suffices hx : ∃ fuel0 tl s', (∀ fuel, fuel0 ≤ fuel →
      Snd.effect dw room fuel { s with core := x.head.after o s.core } x (x.head.result o s.core.pm) =
        some (.ok (tl, s'))) ∧ Trace.Ok tl ∧ SndOk L (Recode.applyCmd H (x.ringCmd dw)) s' ∧
      s'.core = x.head.after o s.core ∧
      (∀ {tr gs F}, LPlays dw L s'.lbk (Recode.applyCmd H (x.ringCmd dw)) gs tr F →
        LPlays dw L s.lbk H ([x.head.result o s.core.pm].filter forwarded ++ gs) (tl ++ tr) F) by
    obtain ⟨f0, tl, s', h1, h2, h3, h4, h5⟩ := hx
    refine ⟨max ys.length f0, ys, tl, s', ?_, hnib, h2, h3, h4, ?_, h5⟩
    · intro fuel hf
      rw [Snd.item, henc fuel (by omega)]
      simp only
      rw [h1 fuel (by omega)]
      rfl
    · intro tr gs hp
      rw [h4] at hp
      exact plays_of_encCmd ys.length (henc ys.length (Nat.le_refl _)) hp
  cases x with
  | copy d n =>
    obtain ⟨f0, s', h1, h2, h3, h4⟩ := populate_spec hL hroom hv.ring (s := ⟨(Item.copy d n).head.after o s.core, s.lbk, s.ring⟩)
      hcore h.lbk h.ring h.sub
    refine ⟨f0, [], s', ?_, by simp [Trace.Ok], h2, h3, ?_⟩
    · intro fuel hf
      simp only [Snd.effect]
      rw [h1 fuel hf]
      rfl
    · intro tr gs F hp
      have hp' := hp.last8 s.lbk.last8
      rw [h4] at hp'
      exact .copy hv.ring hp'
  | dict z i t =>
    obtain ⟨f0, s', h1, h2, h3, h4⟩ := populate_spec hL hroom hv.ring (s := ⟨(Item.dict z i t).head.after o s.core, s.lbk, s.ring⟩)
      hcore h.lbk h.ring h.sub
    refine ⟨f0, [], s', ?_, by simp [Trace.Ok], h2, h3, ?_⟩
    · intro fuel hf
      simp only [Snd.effect]
      rw [h1 fuel hf]
      rfl
    · intro tr gs F hp
      have hp' := hp.last8 s.lbk.last8
      rw [h4] at hp'
      exact .dict hv.ring hp'
  | lit data e =>
    obtain ⟨tl, hsb, htl, -⟩ := Lit.sendBytes_total data s.lbk h.lbk
    obtain ⟨f0, s', h1, h2, h3, h4⟩ := populate_spec hL hroom (c := .lit data) trivial
      (s := ⟨(Item.lit data e).head.after o s.core, data.foldl Lit.Lbk.pushByte s.lbk, s.ring⟩) hcore
      (Lit.pushAll_ok data s.lbk h.lbk) h.ring h.sub
    refine ⟨f0, tl, s', ?_, htl, h2, h3, ?_⟩
    · intro fuel hf
      simp only [Snd.effect, hsb]
      rw [h1 fuel hf]
      rfl
    · intro tr gs F hp
      have hp' := hp.last8 (data.foldl Lit.Lbk.pushByte s.lbk).last8
      rw [h4] at hp'
      have hlast : ({ s.lbk with last8 := Lit.pack8 (Recode.contextOf L H) } : Lit.Lbk) = s.lbk := by
        rw [← h.last]
      exact .lit (fun hd => by have := hv.head.1; simp [hd] at this) (by rw [hlast]; exact hsb) hp'
  | bswitch k t st =>
    cases k with
    | lit =>
      refine ⟨0, [], { s with core := _, lbk := s.lbk.obsBtype t }, fun fuel _ => rfl, by simp [Trace.Ok],
        ⟨hcore, Lit.obsBtype_ok h.lbk t, h.ring, h.sub, h.last⟩, rfl, ?_⟩
      intro tr gs F hp
      exact .bswitch hp
    | cmd =>
      refine ⟨0, [], { s with core := _ }, fun fuel _ => rfl, by simp [Trace.Ok],
        ⟨hcore, h.lbk, h.ring, h.sub, h.last⟩, rfl, ?_⟩
      intro tr gs F hp
      exact hp
    | dist =>
      refine ⟨0, [], { s with core := _ }, fun fuel _ => rfl, by simp [Trace.Ok],
        ⟨hcore, h.lbk, h.ring, h.sub, h.last⟩, rfl, ?_⟩
      intro tr gs F hp
      exact hp
  | pm p =>
    obtain ⟨l', h1, h2, h3⟩ := pmGot_observed hv.head (hv.speeds p rfl) h.core.pm (l := s.lbk)
    refine ⟨0, [], { s with core := _, lbk := l' }, ?_, by simp [Trace.Ok],
      ⟨hcore, h2, h.ring, h.sub, h3.trans h.last⟩, rfl, ?_⟩
    · intro fuel _
      simp only [Snd.effect, Item.head, Codec.Head.result]
      rw [h1]
      rfl
    · intro tr gs F hp
      exact .pm h1 hp

theorem end_spec {c : Codec.Core} (hc : Codec.CoreOk c) :
    ∃ ys, Codec.encEnd c = .ok (ys, { c with at_ := .stop }) ∧ (∀ y ∈ ys, y.nib < 16) ∧
      Plays c (symTrace ys) [] := by
  obtain ⟨a, ha⟩ := Codec.begin_ask hc
  have ht : Codec.startTake c 15 = .ok { c with at_ := .stop } := rfl
  refine ⟨[⟨a, 15⟩], ?_, by simp, ?_⟩
  · simp only [Codec.encEnd, ha, ht, Codec.Res.bind]
  · refine .more ha (c' := { c with at_ := .stop }) ?_ (.stop rfl)
    simp only [Codec.coreTake, hc.at_, ht, Codec.Res.bind]

/-- Any list of valid commands is sent. -/
theorem send_spec {o : Codec.Opts} {dw : Nat → Nat → Nat → List UInt8} {L : Nat} (hL : 8 ≤ L) {room : Nat}
    (hroom : 0 < room) : ∀ (xs : List Item), (∀ x ∈ xs, x.Valid o dw L) → ∀ {H : List UInt8} {s : Snd},
    SndOk L H s →
    ∃ fuel0 tc tl, (∀ fuel, fuel0 ≤ fuel → sendAll o dw room fuel xs s = some (.ok (tc, tl))) ∧
      (∀ y ∈ tc, y.2 < 16) ∧ Trace.Ok tl ∧
      Plays s.core tc (Codec.resultAll o s.core (xs.map Item.head)) ∧
      LPlays dw L s.lbk H ((Codec.resultAll o s.core (xs.map Item.head)).filter forwarded) tl
        (Recode.expand H (xs.map (Item.ringCmd dw))) := by
  intro xs
  induction xs with
  | nil =>
    intro _ H s h
    obtain ⟨ys, h1, h2, h3⟩ := end_spec h.core
    refine ⟨0, symTrace ys, [], ?_, ?_, by simp [Trace.Ok], h3, .nil⟩
    · intro fuel _
      rw [sendAll, h1]
      rfl
    · intro y hy
      obtain ⟨z, hz, rfl⟩ := List.mem_map.1 hy
      exact h2 z hz
  | cons x xs ih =>
    intro hv H s h
    obtain ⟨f1, ys, tl1, s', h1, h2, h3, h4, h5, h6, h7⟩ := item_spec hL hroom (hv x (by simp)) h
    obtain ⟨f2, tc2, tl2, g1, g2, g3, g4, g5⟩ := ih (fun y hy => hv y (by simp [hy])) h4
    refine ⟨max f1 f2, symTrace ys ++ tc2, tl1 ++ tl2, ?_, ?_, ?_, ?_, ?_⟩
    · intro fuel hf
      rw [sendAll, h1 fuel (by omega)]
      simp only
      rw [g1 fuel (by omega)]
      rfl
    · intro y hy
      rcases List.mem_append.1 hy with hy | hy
      · obtain ⟨z, hz, rfl⟩ := List.mem_map.1 hy
        exact h2 z hz
      · exact g2 y hy
    · intro y hy
      rcases List.mem_append.1 hy with hy | hy
      · exact h3 y hy
      · exact g3 y hy
    · have := h6 g4
      rw [h5] at this
      exact this
    · have := h7 g5
      rw [h5, ← List.filter_append] at this
      exact this

end Divans.Pipe
