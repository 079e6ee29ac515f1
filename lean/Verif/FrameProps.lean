import Verif.Frame
import Verif.CrcProps

/-!
# Properties of the container: C23, C24 on the writing side, header parsing
-/

namespace Divans.Frame
open Divans.Crc (crc32c)

/-! ## Specification -/

/-- The layout of a compressed file: sixteen bytes of header, the multiplexed streams, the CRC-32C of
both in little endian order, and the letters `ans~`. -/
def fileOf (window : Nat) (body : List UInt8) : List UInt8 :=
  let start := [0xff, 0xe5, 0x8c, 0x9f, 0, UInt8.ofNat window, 0, 0, 0, 0, 0, 0, 0, 0, 0, 0] ++ body
  let c := crc32c start
  start ++ [UInt8.ofNat (c % 256), UInt8.ofNat (c / 256 % 256), UInt8.ofNat (c / 65536 % 256),
    UInt8.ofNat (c / 16777216 % 256)] ++ [0x61, 0x6e, 0x73, 0x7e]

/-! ## Lemmas -/

theorem makeHeader_length (w : UInt8) : (makeHeader w).length = 16 := rfl
theorem trailer_length (c : Nat) : (trailer c).length = 8 := rfl

theorem crc_append (a b : List UInt8) : Crc.update (crc32c a) b = crc32c (a ++ b) := by
  have := Crc.crc_incremental [a, b]
  simp only [List.foldl_cons, List.foldl_nil, List.flatten_cons, List.flatten_nil, List.append_nil] at this
  rw [← this, Crc.crc_correct]

theorem crc_nil : crc32c [] = Crc.init := by rw [← Crc.crc_correct]; rfl

/-- Bytes of the trailer written. -/
def Stage.written : Stage → Nat
  | .check n => n
  | .done => 8
  | _ => 0

/-- Is the multiplexer still being filled or emptied? -/
def Stage.early : Stage → Bool
  | .code => true
  | .drain => true
  | _ => false

/-- The invariant: what has been written is a beginning of the header, then body bytes of the
multiplexer for pushes `P`, then a beginning of the trailer. -/
structure CInv (c : Cmp) (P : Bool → List UInt8) (B E : List UInt8) : Prop where
  le : c.progress ≤ 16
  minv : Mux.Inv c.mux
  rel : Mux.Rel c.mux P B
  out : E = (makeHeader c.window).take c.progress ++ B ++ (trailer c.crc).take c.stage.written
  crc : c.crc = crc32c ((makeHeader c.window).take c.progress ++ B)
  first : c.progress < 16 → B = [] ∧ c.stage = .code
  eof : c.stage.early = false → c.mux.eof = .done
  sum : c.stage.written ≤ 8

/-- Bytes still to be written at most. -/
def Cmp.left (c : Cmp) : Nat :=
  (16 - c.progress) + (Mux.cost c.mux + (Mux.eofRest c.mux.eof).length) + (8 - c.stage.written)

theorem cinv_new (w : UInt8) : CInv (Cmp.new w) (fun _ => []) [] [] :=
  ⟨Nat.zero_le _, Mux.inv_new, Mux.rel_new, rfl, by
    simp only [Cmp.new, List.take_zero, List.append_nil]; exact crc_nil.symm, fun _ => ⟨rfl, rfl⟩,
    fun h => by simp [Cmp.new, Stage.early] at h, Nat.zero_le _⟩

theorem header_spec {c : Cmp} {P : Bool → List UInt8} {B E : List UInt8} (h : CInv c P B E) (room : Nat) :
    ∃ c' out ok, c.header room = (c', out, ok) ∧ CInv c' P B (E ++ out) ∧ out.length ≤ room ∧
      c'.window = c.window ∧ c'.mux = c.mux ∧ c'.stage = c.stage ∧ (ok = true → c'.progress = 16) ∧
      (ok = false → out.length = room ∧ c'.stage = .code) ∧ c'.left + out.length = c.left := by
  unfold Cmp.header
  have hle := h.le
  by_cases h16 : c.progress = 16
  · rw [if_pos h16]
    exact ⟨c, [], true, rfl, by simpa using h, Nat.zero_le _, rfl, rfl, rfl, fun _ => h16, by simp, by simp⟩
  rw [if_neg h16]
  obtain ⟨hB, hst⟩ := h.first (by omega)
  subst hB
  have hE := h.out
  have hcrc := h.crc
  rw [hst] at hE
  simp only [Stage.written, List.take_zero, List.append_nil] at hE hcrc
  have hdl : ((makeHeader c.window).drop c.progress).length = 16 - c.progress := by
    rw [List.length_drop, makeHeader_length]
  by_cases hr : room + c.progress < 16
  · rw [if_pos hr]
    have htl : (((makeHeader c.window).drop c.progress).take room).length = room := by
      rw [List.length_take, hdl]; omega
    have hcat : (makeHeader c.window).take c.progress ++ ((makeHeader c.window).drop c.progress).take room =
        (makeHeader c.window).take (c.progress + room) := by rw [List.take_add]
    refine ⟨_, _, false, rfl, ⟨by simp only; omega, h.minv, h.rel, ?_, ?_, fun _ => ⟨rfl, hst⟩, h.eof, h.sum⟩, ?_, rfl, rfl, rfl,
      by simp, fun _ => ⟨htl, hst⟩, ?_⟩
    · simp only [hst, Stage.written, List.take_zero, List.append_nil]
      rw [hE, hcat]
    · simp only [List.append_nil]
      rw [hcrc, crc_append, hcat]
    · rw [htl]
    · rw [htl]
      simp only [Cmp.left]
      omega
  · rw [if_neg hr]
    have hcat : (makeHeader c.window).take c.progress ++ (makeHeader c.window).drop c.progress =
        makeHeader c.window := List.take_append_drop _ _
    refine ⟨_, _, true, rfl, ⟨by simp, h.minv, h.rel, ?_, ?_, fun hlt => by simp at hlt, h.eof, h.sum⟩, ?_, rfl,
      rfl, rfl, by simp, by simp, ?_⟩
    · simp only [hst, Stage.written, List.take_zero, List.append_nil]
      rw [hE, hcat]
      rfl
    · simp only [List.append_nil]
      rw [hcrc, crc_append, hcat]
      rfl
    · rw [hdl]; omega
    · rw [hdl]
      simp only [Cmp.left]
      omega

theorem code_spec {c : Cmp} {P : Bool → List UInt8} {B E : List UInt8} (h : CInv c P B E) (op : Mux.MOp)
    (hal : (COp.code op).allowed c = true) :
    ∃ c' out, c.code op = some (c', out) ∧ CInv c' (fun i => P i ++ op.data i) (B ++ out) (E ++ out) ∧
      c'.window = c.window := by
  simp only [COp.allowed, Bool.and_eq_true, decide_eq_true_eq] at hal
  obtain ⟨⟨⟨h16, hst⟩, hal⟩, -⟩ := hal
  obtain ⟨m', out, e, hi', hr'⟩ := Mux.runOps_spec [op] c.mux P B h.minv h.rel (by
    rw [Mux.legal, hal, Bool.true_and]
    cases op.run c.mux <;> rfl)
  have e' : op.run c.mux = some (m', out) := by
    simp only [Mux.runOps, Option.bind_eq_bind] at e
    cases hop : op.run c.mux with
    | none => rw [hop] at e; cases e
    | some x => rw [hop] at e; simpa using e
  refine ⟨{ c with mux := m', crc := Crc.update c.crc out }, out, by rw [Cmp.code, e', Option.map_some], ?_, rfl⟩
  have hE := h.out
  have hcrc := h.crc
  rw [hst] at hE
  simp only [Stage.written, List.take_zero, List.append_nil] at hE
  refine ⟨h.le, hi', by simpa [Mux.pushed] using hr', ?_, ?_, ?_, ?_, h.sum⟩
  · simp only [hst, Stage.written, List.take_zero, List.append_nil]
    rw [hE, List.append_assoc]
  · simp only
    rw [hcrc, crc_append, List.append_assoc]
  · intro hlt; simp only at hlt; omega
  · intro hx; simp only [hst, Stage.early] at hx; cases hx

theorem drain_spec : ∀ (fuel : Nat) {m : Mux.Mux} {P : Bool → List UInt8} {B : List UInt8} (room : Nat),
    Mux.Inv m → Mux.Rel m P B → (room = 0 ∨ 1 < fuel) → 0 < fuel →
    ∃ m' out ok, drain fuel m room = some (m', out, ok) ∧ Mux.Inv m' ∧ Mux.Rel m' P (B ++ out) ∧
      out.length ≤ room ∧ (ok = true → m'.eof = .done) ∧ (ok = false → out.length = room) ∧
      Mux.cost m' + (Mux.eofRest m'.eof).length + out.length ≤ Mux.cost m + (Mux.eofRest m.eof).length := by
  intro fuel
  induction fuel with
  | zero => intro m P B room _ _ _ h; omega
  | succ fuel ih =>
    intro m P B room hi hr hf _
    rw [drain]
    by_cases h0 : room = 0
    · rw [if_pos h0]
      exact ⟨m, [], false, rfl, hi, by simpa using hr, Nat.zero_le _, by simp, by simp [h0], by simp⟩
    rw [if_neg h0]
    obtain ⟨m', out, e, hi', hl, hrel, hfin, hcost⟩ := Mux.close_spec hi room
    rw [e]
    have hr' := hrel P B hr
    have hiff := Mux.isEof_of_rel hi' hr'
    simp only
    by_cases hd : m'.isEof = true
    · rw [if_pos hd]
      exact ⟨m', out, true, rfl, hi', hr', hl, fun _ => hiff.mp hd, by simp, hcost⟩
    · rw [if_neg hd]
      have hne : m.eof ≠ .done := by
        intro hdm
        rw [Mux.serializeClose, if_pos hdm] at e
        cases e
        exact hd (hiff.mpr hdm)
      have hfull : out.length = room := by
        rcases Nat.lt_or_ge out.length room with hlt | hge
        · exact absurd (hiff.mpr (hfin hne hlt)) hd
        · omega
      obtain ⟨m'', out', ok, e2, hi2, hr2, hl2, hok, hno, hc2⟩ :=
        ih (room - out.length) hi' hr' (Or.inl (by omega)) (by omega)
      have hnil : out' = [] := List.eq_nil_of_length_eq_zero (by omega)
      subst hnil
      refine ⟨m'', out ++ [], ok, by rw [e2]; rfl, hi2, by simpa using hr2, by simpa using hl, hok, fun _ => by simpa using hfull, ?_⟩
      simp only [List.append_nil, List.length_nil] at hc2 ⊢
      omega

theorem check_spec {c : Cmp} {P : Bool → List UInt8} {B E : List UInt8} {n : Nat} (h : CInv c P B E)
    (hst : c.stage = .check n) (room : Nat) :
    ∃ c' out ok, c.check n room = (c', out, ok) ∧ CInv c' P B (E ++ out) ∧ out.length ≤ room ∧
      c'.window = c.window ∧ (ok = true ↔ c'.stage = .done) ∧ (ok = false → out.length = room) ∧
      c'.left + out.length ≤ c.left := by
  unfold Cmp.check
  have hsum := h.sum
  have hE := h.out
  have heof := h.eof
  have h16 : c.progress = 16 := by
    rcases Nat.lt_or_ge c.progress 16 with hlt | hge
    · have := (h.first hlt).2; rw [hst] at this; cases this
    · have := h.le; omega
  rw [hst] at hsum hE heof
  simp only [Stage.written] at hsum hE
  have hlen : (((trailer c.crc).drop n).take (min room (8 - n))).length = min room (8 - n) := by
    rw [List.length_take, List.length_drop, trailer_length]; omega
  have hcat : ∀ k, (trailer c.crc).take n ++ ((trailer c.crc).drop n).take k = (trailer c.crc).take (n + k) := by
    intro k; rw [List.take_add]
  by_cases hr : 8 - n ≤ room
  · rw [if_pos hr]
    refine ⟨_, _, true, rfl, ⟨h.le, h.minv, h.rel, ?_, h.crc, fun hlt => by simp only at hlt; omega,
      fun _ => heof rfl, by simp [Stage.written]⟩, by rw [hlen]; omega, rfl, by simp, by simp, ?_⟩
    · simp only [Stage.written]
      rw [hE, List.append_assoc, hcat, show n + min room (8 - n) = 8 by omega]
    · rw [hlen]
      simp only [Cmp.left, hst, Stage.written]; omega
  · rw [if_neg hr]
    refine ⟨_, _, false, rfl, ⟨h.le, h.minv, h.rel, ?_, h.crc, fun hlt => by simp only at hlt; omega,
      fun _ => heof rfl, by simp only [Stage.written]; omega⟩, by rw [hlen]; omega, rfl, by simp, fun _ => by rw [hlen]; omega, ?_⟩
    · simp only [Stage.written]
      rw [hE, List.append_assoc, hcat]
    · rw [hlen]
      simp only [Cmp.left, hst, Stage.written]; omega

theorem finish_spec {c : Cmp} {P : Bool → List UInt8} {B E : List UInt8} (h : CInv c P B E)
    (h16 : c.progress = 16) (room : Nat) :
    ∃ c' out ok B', c.finish room = some (c', out, ok) ∧ CInv c' P B' (E ++ out) ∧ out.length ≤ room ∧
      c'.window = c.window ∧ (ok = true ↔ c'.stage = .done) ∧ (ok = false → out.length = room) ∧
      c'.left + out.length ≤ c.left := by
  have early : c.stage.early = true →
      ∃ c' out ok B', (match drain (room + 2) c.mux room with
        | none => none
        | some (m, out, false) =>
          some ({ c with mux := m, crc := Crc.update c.crc out, stage := .drain }, out, false)
        | some (m, out, true) =>
          let r := ({ c with mux := m, crc := Crc.update c.crc out, stage := .check 0 } : Cmp).check 0
            (room - out.length)
          some (r.1, out ++ r.2.1, r.2.2)) = some (c', out, ok) ∧ CInv c' P B' (E ++ out) ∧ out.length ≤ room ∧
      c'.window = c.window ∧ (ok = true ↔ c'.stage = .done) ∧ (ok = false → out.length = room) ∧
      c'.left + out.length ≤ c.left := by
    intro he
    have hw : c.stage.written = 0 := by
      cases hs : c.stage <;> rw [hs] at he <;> simp [Stage.early, Stage.written] at he ⊢
    obtain ⟨m', out, ok, e, hi', hr', hl, hd, hf, hc⟩ := drain_spec (room + 2) (m := c.mux) room h.minv h.rel
      (Or.inr (by omega)) (by omega)
    rw [e]
    have hE := h.out
    have hcrc := h.crc
    rw [hw] at hE
    simp only [List.take_zero, List.append_nil] at hE
    cases ok with
    | false =>
      refine ⟨_, out, false, B ++ out, rfl, ⟨h.le, hi', hr', ?_, ?_, fun hlt => by simp only at hlt; omega,
        fun hx => by simp [Stage.early] at hx, by simp [Stage.written]⟩, hl, rfl, by simp, fun _ => hf rfl, ?_⟩
      · simp only [Stage.written, List.take_zero, List.append_nil]
        rw [hE, List.append_assoc]
      · simp only
        rw [hcrc, crc_append, List.append_assoc]
      · have : ({ c with mux := m', crc := Crc.update c.crc out, stage := .drain } : Cmp).left =
            (16 - c.progress) + (Mux.cost m' + (Mux.eofRest m'.eof).length) + 8 := rfl
        rw [this, Cmp.left, hw]
        omega
    | true =>
      have hinv : CInv { c with mux := m', crc := Crc.update c.crc out, stage := .check 0 } P (B ++ out) (E ++ out) := by
        refine ⟨h.le, hi', hr', ?_, ?_, fun hlt => by simp only at hlt; omega, fun _ => hd rfl, by simp [Stage.written]⟩
        · simp only [Stage.written, List.take_zero, List.append_nil]
          rw [hE, List.append_assoc]
        · simp only
          rw [hcrc, crc_append, List.append_assoc]
      obtain ⟨c', o2, ok2, e2, hinv2, hl2, hw2, hok2, hf2, hleft⟩ := check_spec hinv rfl (room - out.length)
      refine ⟨c', out ++ o2, ok2, B ++ out, by simp only [e2], by rw [← List.append_assoc]; exact hinv2, ?_, hw2, hok2, ?_, ?_⟩
      · rw [List.length_append]; omega
      · intro hx; rw [List.length_append, hf2 hx]; omega
      · have : ({ c with mux := m', crc := Crc.update c.crc out, stage := .check 0 } : Cmp).left =
            (16 - c.progress) + (Mux.cost m' + (Mux.eofRest m'.eof).length) + 8 := rfl
        rw [this] at hleft
        have h0 : c.left = (16 - c.progress) + (Mux.cost c.mux + (Mux.eofRest c.mux.eof).length) + 8 := by
          rw [Cmp.left, hw]
        rw [List.length_append, h0]
        generalize c'.left = q at *
        omega
  unfold Cmp.finish
  cases hs : c.stage with
  | done =>
    exact ⟨c, [], true, B, rfl, by simpa using h, Nat.zero_le _, rfl, by simp [hs], by simp, by simp⟩
  | check n =>
    obtain ⟨c', out, ok, e, hinv, hl, hw, hok, hf, hleft⟩ := check_spec h hs room
    exact ⟨c', out, ok, B, by simp only [e], hinv, hl, hw, hok, hf, hleft⟩
  | code => exact early (by rw [hs]; rfl)
  | drain => exact early (by rw [hs]; rfl)

theorem flush_spec {c : Cmp} {P : Bool → List UInt8} {B E : List UInt8} (h : CInv c P B E) (room : Nat) :
    ∃ c' out ok B', c.flush room = some (c', out, ok) ∧ CInv c' P B' (E ++ out) ∧ out.length ≤ room ∧
      c'.window = c.window ∧ (ok = true ↔ c'.stage = .done) ∧ (ok = false → out.length = room) ∧
      c'.left + out.length ≤ c.left := by
  obtain ⟨c1, w, ok1, e1, hinv1, hl1, hw1, -, -, h16, hno, hleft1⟩ := header_spec h room
  unfold Cmp.flush
  rw [e1]
  cases ok1 with
  | false =>
    have := hno rfl
    exact ⟨c1, w, false, B, rfl, hinv1, hl1, hw1, by simp [this.2], fun _ => this.1, by omega⟩
  | true =>
    obtain ⟨c', out, ok, B', e2, hinv2, hl2, hw2, hok2, hf2, hleft⟩ := finish_spec hinv1 (h16 rfl) (room - w.length)
    refine ⟨c', w ++ out, ok, B', by simp only [e2, Option.map_some], by rw [← List.append_assoc]; exact hinv2, ?_, hw2.trans hw1, hok2, ?_, ?_⟩
    · rw [List.length_append]; omega
    · intro hx; rw [List.length_append, hf2 hx]; omega
    · rw [List.length_append]; omega

theorem op_spec {c : Cmp} {P : Bool → List UInt8} {B E : List UInt8} (h : CInv c P B E) (op : COp)
    (hal : op.allowed c = true) :
    ∃ c' out B', op.run c = some (c', out) ∧ CInv c' (fun i => P i ++ coded i [op]) B' (E ++ out) ∧
      c'.window = c.window := by
  cases op with
  | begin room =>
    obtain ⟨c', out, ok, e, hinv, -, hw, -⟩ := header_spec h room
    exact ⟨c', out, B, by simp only [COp.run, e], by simpa [coded] using hinv, hw⟩
  | code op =>
    obtain ⟨c', out, e, hinv, hw⟩ := code_spec h op hal
    exact ⟨c', out, B ++ out, e, by simpa [coded] using hinv, hw⟩
  | flush room =>
    obtain ⟨c', out, ok, B', e, hinv, -, hw, -⟩ := flush_spec h room
    exact ⟨c', out, B', by simp only [COp.run, e, Option.map_some], by simpa [coded] using hinv, hw⟩

theorem coded_cons (i : Bool) (op : COp) (ops : List COp) :
    coded i (op :: ops) = coded i [op] ++ coded i ops := by
  cases op <;> simp [coded]

theorem crun_spec : ∀ (ops : List COp) {c : Cmp} {P : Bool → List UInt8} {B E : List UInt8}, CInv c P B E →
    clegal c ops = true →
    ∃ c' out B', crun c ops = some (c', out) ∧ CInv c' (fun i => P i ++ coded i ops) B' (E ++ out) ∧
      c'.window = c.window := by
  intro ops
  induction ops with
  | nil =>
    intro c P B E h _
    exact ⟨c, [], B, rfl, by simpa [coded] using h, rfl⟩
  | cons op ops ih =>
    intro c P B E h hl
    rw [clegal, Bool.and_eq_true] at hl
    obtain ⟨hal, hl⟩ := hl
    obtain ⟨c1, o1, B1, e1, h1, w1⟩ := op_spec h op hal
    rw [e1] at hl
    obtain ⟨c2, o2, B2, e2, h2, w2⟩ := ih h1 hl
    refine ⟨c2, o1 ++ o2, B2, by simp only [crun, e1, Option.bind_some, e2, Option.map_some], ?_, w2.trans w1⟩
    have hP : (fun i => P i ++ coded i (op :: ops)) = fun i => (P i ++ coded i [op]) ++ coded i ops := by
      funext i; rw [coded_cons, List.append_assoc]
    rw [hP, ← List.append_assoc]
    exact h2

/-! ## The theorems -/

/-- A byte string that the demultiplexer reads as a complete pair of streams: it is accepted to the
last byte, the end marker included, and delivers `cmd` and `lit`. -/
def Body (cmd lit body : List UInt8) : Prop :=
  ∃ s, Mux.runAll .init body = some s ∧ s.eof = .done ∧ s.out false = cmd ∧ s.out true = lit

theorem body_of_rel {m : Mux.Mux} {P : Bool → List UInt8} {B : List UInt8} (hr : Mux.Rel m P B)
    (hd : m.eof = .done) : Body (P false) (P true) B := by
  obtain ⟨⟨s, hrun, -, he, ho⟩, hdone⟩ := hr
  have h0 := hdone hd
  rw [h0, List.take_nil, List.append_nil] at hrun
  refine ⟨s, hrun, he.trans hd, ?_, ?_⟩
  · have := ho false
    rwa [h0, List.drop_nil, List.append_nil] at this
  · have := ho true
    rwa [h0, List.drop_nil, List.append_nil] at this

theorem fileOf_eq (w : UInt8) (B : List UInt8) :
    fileOf w.toNat B = makeHeader w ++ B ++ trailer (crc32c (makeHeader w ++ B)) := by
  simp only [fileOf, UInt8.ofNat_toNat]
  rw [List.append_assoc (_ ++ B)]
  rfl

/-- **C23, C24 (writing).**  Whatever the coders hand to the multiplexer, in whatever pieces the output
buffers come: nothing fails, and when flushing has reported success the bytes written are the header,
a complete pair of streams carrying exactly the coders' bytes, the CRC-32C of these, and `ans~`. -/
theorem container_layout (w : UInt8) (ops : List COp) (hl : clegal (.new w) ops = true) :
    ∃ c out, crun (.new w) ops = some (c, out) ∧
      (c.stage = .done → ∃ body, Body (coded false ops) (coded true ops) body ∧ out = fileOf w.toNat body) := by
  obtain ⟨c, out, B, e, h, hw⟩ := crun_spec ops (cinv_new w) hl
  refine ⟨c, out, e, fun hd => ⟨B, ?_, ?_⟩⟩
  · have := body_of_rel h.rel (h.eof (by rw [hd]; rfl))
    simpa using this
  · have h16 : c.progress = 16 := by
      rcases Nat.lt_or_ge c.progress 16 with hlt | hge
      · have := (h.first hlt).2; rw [hd] at this; cases this
      · have := h.le; omega
    have hE := h.out
    have hcrc := h.crc
    rw [hd, h16, List.take_of_length_le (by rw [makeHeader_length]), hw, List.nil_append] at hE
    rw [h16, List.take_of_length_le (by rw [makeHeader_length]), hw] at hcrc
    rw [hE, hcrc, fileOf_eq]
    rfl

/-- **C23, C24 (progress).**  After any history, flushing into nonempty output buffers, however
small, reports success after finitely many calls: each call fills its buffer or succeeds. -/
theorem flush_finishes (w : UInt8) (ops : List COp) (hl : clegal (.new w) ops = true) :
    ∃ n, ∀ rooms : List Nat, n ≤ rooms.length → (∀ k ∈ rooms, 0 < k) →
      ∃ c out, crun (.new w) (ops ++ rooms.map .flush) = some (c, out) ∧ c.stage = .done := by
  obtain ⟨c, out, B, e, h, hw⟩ := crun_spec ops (cinv_new w) hl
  have key : ∀ (rooms : List Nat) {c : Cmp} {P : Bool → List UInt8} {B E : List UInt8}, CInv c P B E →
      (∀ k ∈ rooms, 0 < k) → (c.stage = .done ∨ c.left < rooms.length) →
      ∃ c' out, crun c (rooms.map .flush) = some (c', out) ∧ c'.stage = .done := by
    intro rooms
    induction rooms with
    | nil =>
      intro c P B E h _ hor
      rcases hor with hd | hlt
      · exact ⟨c, [], rfl, hd⟩
      · simp at hlt
    | cons k rooms ih =>
      intro c P B E h hk hor
      obtain ⟨c', o, ok, B', e, h', -, -, hok, hno, hleft⟩ := flush_spec h k
      obtain ⟨c2, o2, e2, hd⟩ := ih h' (fun x hx => hk x (List.mem_cons_of_mem _ hx)) (by
        cases ok with
        | true => exact Or.inl (hok.mp rfl)
        | false =>
          right
          rcases hor with hd | hlt
          · exfalso
            have : c.flush k = some (c, [], true) := by
              have h16 : c.progress = 16 := by
                rcases Nat.lt_or_ge c.progress 16 with hlt | hge
                · have := (h.first hlt).2; rw [hd] at this; cases this
                · have := h.le; omega
              simp [Cmp.flush, Cmp.header, h16, Cmp.finish, hd]
            rw [this] at e
            cases e
          · have h1 := hno rfl
            have h2 := hk k List.mem_cons_self
            rw [List.length_cons] at hlt
            omega)
      exact ⟨c2, o ++ o2, by simp only [List.map_cons, crun, COp.run, e, Option.map_some, Option.bind_some, e2], hd⟩
  refine ⟨c.left + 1, fun rooms hn hk => ?_⟩
  obtain ⟨c', o', e', hd⟩ := key rooms h hk (Or.inr (by omega))
  refine ⟨c', out ++ o', ?_, hd⟩
  have app : ∀ (as bs : List COp) (c0 : Cmp) (c1 : Cmp) (o1 : List UInt8), crun c0 as = some (c1, o1) →
      crun c0 (as ++ bs) = (crun c1 bs).map fun y => (y.1, o1 ++ y.2) := by
    intro as bs
    induction as with
    | nil =>
      intro c0 c1 o1 h
      simp only [crun, Option.some.injEq, Prod.mk.injEq] at h
      obtain ⟨rfl, rfl⟩ := h
      simp
    | cons a as ih =>
      intro c0 c1 o1 h
      simp only [crun, List.cons_append] at h ⊢
      cases ha : a.run c0 with
      | none => rw [ha] at h; cases h
      | some x =>
        rw [ha, Option.bind_some] at h
        rw [Option.bind_some]
        cases hr : crun x.1 as with
        | none => rw [hr] at h; cases h
        | some y =>
          rw [hr, Option.map_some] at h
          cases h
          rw [ih _ _ _ hr, Option.map_map]
          congr 1
          funext z
          simp
  rw [app _ _ _ _ _ e, e', Option.map_some]

/-- **C24 (window).**  Whatever window size is asked for, the compressor uses one from 10 to 24, and
the one asked for if that is in range. -/
theorem window_clamped (opt : Option Int) :
    10 ≤ (windowOf opt).toNat ∧ (windowOf opt).toNat ≤ 24 ∧
      (∀ n : Nat, opt = some n → 10 ≤ n → n ≤ 24 → (windowOf opt).toNat = n) ∧
      (opt = none → (windowOf opt).toNat = 22) := by
  have h : (windowOf opt).toNat = (min 24 (max 10 (opt.getD 22))).toNat := by
    unfold windowOf
    rw [UInt8.toNat_ofNat']
    omega
  rw [h]
  refine ⟨by omega, by omega, ?_, ?_⟩
  · intro n hn h1 h2
    subst hn
    show (min 24 (max 10 (n : Int))).toNat = n
    omega
  · intro hn
    subst hn
    rfl

/-- A header that is accepted: the four magic bytes and a window size from 10 to 24; the other eleven
bytes do not matter. -/
def GoodHeader (h : List UInt8) (window : Nat) : Prop :=
  h.length = 16 ∧ h.take 4 = [0xff, 0xe5, 0x8c, 0x9f] ∧ h[5]? = some (UInt8.ofNat window) ∧ 10 ≤ window ∧
    window ≤ 24

theorem parseHeader_iff (h : List UInt8) (hlen : h.length = 16) (w : Nat) :
    parseHeader h = some w ↔ GoodHeader h w := by
  match h, hlen with
  | a0 :: a1 :: a2 :: a3 :: a4 :: a5 :: t, hlen =>
  have hlen : t.length = 10 := by simpa using hlen
  have hg : GoodHeader (a0 :: a1 :: a2 :: a3 :: a4 :: a5 :: t) w ↔
      (a0 = 0xff ∧ a1 = 0xe5 ∧ a2 = 0x8c ∧ a3 = 0x9f) ∧ a5 = UInt8.ofNat w ∧ 10 ≤ w ∧ w ≤ 24 := by
    simp [GoodHeader, hlen]
  rw [hg]
  unfold parseHeader
  simp only [List.getD_cons_zero, List.getD_cons_succ]
  by_cases h1 : a0 ≠ 0xff ∨ a1 ≠ 0xe5
  · rw [if_pos h1]
    constructor
    · intro h; cases h
    · rintro ⟨⟨h2, h3, -⟩, -⟩
      rcases h1 with h1 | h1 <;> contradiction
  rw [if_neg h1]
  by_cases h2 : a2 ≠ 0x8c ∨ a3 ≠ 0x9f
  · rw [if_pos h2]
    constructor
    · intro h; cases h
    · rintro ⟨⟨-, -, h3, h4⟩, -⟩
      rcases h2 with h2 | h2 <;> contradiction
  rw [if_neg h2]
  have hm : a0 = 0xff ∧ a1 = 0xe5 ∧ a2 = 0x8c ∧ a3 = 0x9f := by
    rw [not_or, Decidable.not_not, Decidable.not_not] at h1 h2
    exact ⟨h1.1, h1.2, h2.1, h2.2⟩
  have hlt := a5.toNat_lt
  by_cases h3 : a5.toNat < 10 ∨ a5.toNat ≥ 25
  · rw [if_pos h3]
    constructor
    · intro h; cases h
    · rintro ⟨-, h4, h5, h6⟩
      rw [h4, UInt8.toNat_ofNat'] at h3
      omega
  · rw [if_neg h3, Option.some.injEq]
    constructor
    · intro h
      subst h
      exact ⟨hm, by rw [UInt8.ofNat_toNat], by omega, by omega⟩
    · rintro ⟨-, h4, h5, h6⟩
      rw [h4, UInt8.toNat_ofNat']
      omega

/-- Calls of the header parser with successive pieces of input: more bytes needed, or the header and
the bytes that were not used. -/
def headerRun : List UInt8 → List (List UInt8) → HRes
  | got, [] => .more got
  | got, p :: ps =>
    match headerDecode got p with
    | .more got' => headerRun got' ps
    | r => r

/-- The header ends in some piece, after `used` bytes of it. -/
def EndsIn (pieces : List (List UInt8)) (used : Nat) : Prop :=
  ∃ before piece after, pieces = before ++ piece :: after ∧ before.flatten.length + used = 16 ∧
    used ≤ piece.length

/-- **C24 (parsing).**  However the bytes of a file come in, the parser asks for more until it has
sixteen, and then accepts them exactly if they are a good header, reporting its window size.  Of the
last piece it uses just what belongs to the header. -/
theorem header_any_split (pieces : List (List UInt8)) :
    (pieces.flatten.length < 16 → headerRun [] pieces = .more pieces.flatten) ∧
    (16 ≤ pieces.flatten.length →
      (∀ w, GoodHeader (pieces.flatten.take 16) w →
        ∃ used, headerRun [] pieces = .ready (pieces.flatten.take 16) w used ∧ EndsIn pieces used) ∧
      ((∀ w, ¬ GoodHeader (pieces.flatten.take 16) w) →
        ∃ used, headerRun [] pieces = .fail used ∧ EndsIn pieces used)) := by
  have key : ∀ (pieces : List (List UInt8)) (got : List UInt8), got.length < 16 →
      ((got ++ pieces.flatten).length < 16 → headerRun got pieces = .more (got ++ pieces.flatten)) ∧
      (16 ≤ (got ++ pieces.flatten).length →
        ∃ before piece after used, pieces = before ++ piece :: after ∧
          got.length + before.flatten.length + used = 16 ∧ used ≤ piece.length ∧
        (∀ w, GoodHeader ((got ++ pieces.flatten).take 16) w →
          headerRun got pieces = .ready ((got ++ pieces.flatten).take 16) w used) ∧
        ((∀ w, ¬ GoodHeader ((got ++ pieces.flatten).take 16) w) → headerRun got pieces = .fail used)) := by
    intro pieces
    induction pieces with
    | nil =>
      intro got hg
      simp only [List.flatten_nil, List.append_nil, headerRun]
      exact ⟨fun _ => trivial, fun h => by omega⟩
    | cons p ps ih =>
      intro got hg
      rw [headerRun]
      by_cases hp : p.length ≥ 16 - got.length
      · have htake : (got ++ (p :: ps).flatten).take 16 = got ++ p.take (16 - got.length) := by
          rw [List.flatten_cons, List.take_append, List.take_of_length_le (Nat.le_of_lt hg),
            List.take_append_of_le_length hp]
        have hlen : (got ++ p.take (16 - got.length)).length = 16 := by
          rw [List.length_append, List.length_take]; omega
        refine ⟨fun h => ?_, fun _ => ?_⟩
        · exfalso
          rw [List.flatten_cons, List.length_append, List.length_append] at h
          omega
        · rw [htake]
          unfold headerDecode
          simp only [hp, if_true]
          refine ⟨[], p, ps, 16 - got.length, rfl, by simp; omega, hp, ?_, ?_⟩
          · intro w hw
            rw [(parseHeader_iff _ hlen w).mpr hw]
          · intro hw
            cases hph : parseHeader (got ++ p.take (16 - got.length)) with
            | none => rfl
            | some w => exact absurd ((parseHeader_iff _ hlen w).mp hph) (hw w)
      · have : headerDecode got p = .more (got ++ p) := by
          unfold headerDecode
          simp only [hp, if_false]
        rw [this]
        simp only
        have := ih (got ++ p) (by rw [List.length_append]; omega)
        rw [List.append_assoc] at this
        refine ⟨this.1, fun h => ?_⟩
        obtain ⟨b, q, a, used, e1, e2, e3, e4⟩ := this.2 h
        refine ⟨p :: b, q, a, used, by rw [e1]; rfl, ?_, e3, e4⟩
        rw [List.length_append] at e2
        rw [List.flatten_cons, List.length_append]
        omega
  have := key pieces [] (by simp)
  simp only [List.nil_append, List.length_nil, Nat.zero_add] at this
  refine ⟨this.1, fun h => ?_⟩
  obtain ⟨b, q, a, used, e1, e2, e3, e4, e5⟩ := this.2 h
  exact ⟨fun w hw => ⟨used, e4 w hw, b, q, a, e1, e2, e3⟩, fun hw => ⟨used, e5 hw, b, q, a, e1, e2, e3⟩⟩

/-- The header a compressor writes is good. -/
theorem own_header_good (opt : Option Int) : GoodHeader (makeHeader (windowOf opt)) (windowOf opt).toNat := by
  obtain ⟨h1, h2, -, -⟩ := window_clamped opt
  exact ⟨rfl, rfl, by rw [UInt8.ofNat_toNat]; rfl, h1, h2⟩

/-! ## The theorems are not vacuous -/

/-- A history with a cramped header, pushes on both streams and cramped flushes. -/
def sampleOps : List COp :=
  [.begin 3, .begin 5, .begin 40, .code (.push false [1, 2, 3]), .code (.push true [4, 5]), .code (.serialize 9),
   .flush 4, .flush 11, .flush 3, .flush 30]

example : clegal (.new 16) sampleOps = true := by decide +kernel

example : (crun (.new 16) sampleOps).map (fun x => (x.1.stage, x.2)) =
    some (.done, [0xff, 0xe5, 0x8c, 0x9f, 0, 16, 0, 0, 0, 0, 0, 0, 0, 0, 0, 0,
      0, 2, 0, 1, 2, 3, 1, 1, 0, 4, 5, 0xff, 0xfe, 0xff, 33, 38, 53, 82, 97, 110, 115, 126]) := by decide +kernel

example : fileOf 16 [0, 2, 0, 1, 2, 3, 1, 1, 0, 4, 5, 0xff, 0xfe, 0xff] =
    [0xff, 0xe5, 0x8c, 0x9f, 0, 16, 0, 0, 0, 0, 0, 0, 0, 0, 0, 0,
      0, 2, 0, 1, 2, 3, 1, 1, 0, 4, 5, 0xff, 0xfe, 0xff, 33, 38, 53, 82, 97, 110, 115, 126] := by decide +kernel

example : headerRun [] [[0xff, 0xe5], [], [0x8c, 0x9f, 7, 24, 1, 2, 3, 4, 5, 6, 7, 8, 9, 10, 99]] =
    .ready [0xff, 0xe5, 0x8c, 0x9f, 7, 24, 1, 2, 3, 4, 5, 6, 7, 8, 9, 10] 24 14 := by decide +kernel

end Divans.Frame
