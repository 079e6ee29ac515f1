import Verif.FrameProps
import Verif.MuxSizeProps

/-!
# The size of the container: C103

What the compressor writes beside the bytes of its two coders: 16 bytes of header, the framing of the multiplexer, 8 bytes of trailer.
-/

namespace Divans.Frame

/-- The operations of the coders on the multiplexer in a history. -/
def codeOps : List COp → List Mux.MOp
  | [] => []
  | .code op :: ops => op :: codeOps ops
  | _ :: ops => codeOps ops

/-- What is still to be written at most, in parts of 4096 of a byte. -/
def Cmp.price (c : Cmp) : Nat :=
  Mux.price c.mux + 4096 * (Mux.eofRest c.mux.eof).length + 4096 * ((16 - c.progress) + (8 - c.stage.written))

/-! ## Proofs -/

theorem header_price {c c' : Cmp} {room : Nat} {w : List UInt8} {ok : Bool} (hle : c.progress ≤ 16)
    (e : c.header room = (c', w, ok)) : c'.price + 4096 * w.length ≤ c.price := by
  unfold Cmp.header at e
  split_ifs at e with h1 h2
  · cases e; simp
  · cases e
    simp only [Cmp.price, List.length_take, List.length_drop, makeHeader_length]
    omega
  · cases e
    simp only [Cmp.price, List.length_drop, makeHeader_length]
    omega

theorem drain_price : ∀ (fuel : Nat) {m m' : Mux.Mux} {room : Nat} {out : List UInt8} {ok : Bool}, Mux.Inv m →
    drain fuel m room = some (m', out, ok) →
    Mux.price m' + 4096 * (Mux.eofRest m'.eof).length + 4096 * out.length ≤ Mux.price m + 4096 * (Mux.eofRest m.eof).length := by
  intro fuel
  induction fuel with
  | zero => intro m m' room out ok _ e; cases e
  | succ fuel ih =>
    intro m m' room out ok hi e
    rw [drain] at e
    by_cases h0 : room = 0
    · rw [if_pos h0] at e
      cases e
      simp
    rw [if_neg h0] at e
    obtain ⟨m1, o1, e1, hi1, -⟩ := Mux.close_spec hi room
    have h1 := Mux.close_price hi room e1
    rw [e1] at e
    simp only at e
    by_cases hd : m1.isEof = true
    · rw [if_pos hd] at e
      cases e
      exact h1
    · rw [if_neg hd] at e
      cases e2 : drain fuel m1 (room - o1.length) with
      | none => rw [e2] at e; cases e
      | some q =>
        obtain ⟨m2, o2, ok2⟩ := q
        rw [e2] at e
        cases e
        have h2 := ih hi1 e2
        simp only [List.length_append]
        omega

theorem check_price {c c' : Cmp} {n room : Nat} {w : List UInt8} {ok : Bool} (hn : c.stage.written = n) (h8 : n ≤ 8)
    (e : c.check n room = (c', w, ok)) : c'.price + 4096 * w.length ≤ c.price := by
  unfold Cmp.check at e
  simp only at e
  split_ifs at e with h1
  · cases e
    simp only [Cmp.price, hn]
    simp only [Stage.written, List.length_take, List.length_drop, trailer_length]
    omega
  · cases e
    simp only [Cmp.price, hn]
    simp only [Stage.written, List.length_take, List.length_drop, trailer_length]
    omega

theorem finish_price {c c' : Cmp} {room : Nat} {out : List UInt8} {ok : Bool} (hi : Mux.Inv c.mux) (h8 : c.stage.written ≤ 8)
    (e : c.finish room = some (c', out, ok)) : c'.price + 4096 * out.length ≤ c.price := by
  have early : c.stage.written = 0 → (match drain (room + 2) c.mux room with
        | none => none
        | some (m, out, false) =>
          some ({ c with mux := m, crc := Crc.update c.crc out, stage := .drain }, out, false)
        | some (m, out, true) =>
          let r := ({ c with mux := m, crc := Crc.update c.crc out, stage := .check 0 } : Cmp).check 0
            (room - out.length)
          some (r.1, out ++ r.2.1, r.2.2)) = some (c', out, ok) → c'.price + 4096 * out.length ≤ c.price := by
    intro hw e
    cases ed : drain (room + 2) c.mux room with
    | none => rw [ed] at e; cases e
    | some q =>
      obtain ⟨m, o, b⟩ := q
      have h1 := drain_price _ hi ed
      rw [ed] at e
      cases b with
      | false =>
        cases e
        simp only [Cmp.price, hw]
        simp only [Stage.written]
        omega
      | true =>
        rcases hq : ({ c with mux := m, crc := Crc.update c.crc o, stage := .check 0 } : Cmp).check 0 (room - o.length) with ⟨c2, o2, ok2⟩
        have h2 := check_price rfl (Nat.zero_le _) hq
        simp only [hq, Option.some.injEq, Prod.mk.injEq] at e
        obtain ⟨rfl, rfl, rfl⟩ := e
        have h3 : ({ c with mux := m, crc := Crc.update c.crc o, stage := .check 0 } : Cmp).price =
          Mux.price m + 4096 * (Mux.eofRest m.eof).length + 4096 * ((16 - c.progress) + 8) := rfl
        have h4 : c.price = Mux.price c.mux + 4096 * (Mux.eofRest c.mux.eof).length + 4096 * ((16 - c.progress) + 8) := by
          rw [Cmp.price, hw]
        rw [h3] at h2
        rw [h4]
        simp only [List.length_append]
        omega
  unfold Cmp.finish at e
  cases hs : c.stage with
  | done => rw [hs] at e; cases e; simp
  | check n =>
    rw [hs] at e h8
    simp only [Option.some.injEq] at e
    exact check_price (by rw [hs, Stage.written]) h8 e
  | code => rw [hs] at e; exact early (by rw [hs]; rfl) e
  | drain => rw [hs] at e; exact early (by rw [hs]; rfl) e

theorem flush_price {c c' : Cmp} {P : Bool → List UInt8} {B E : List UInt8} (h : CInv c P B E) {room : Nat} {out : List UInt8}
    {ok : Bool} (e : c.flush room = some (c', out, ok)) : c'.price + 4096 * out.length ≤ c.price := by
  obtain ⟨c1, w, ok1, e1, hinv1, -⟩ := header_spec h room
  have h1 := header_price h.le e1
  unfold Cmp.flush at e
  rw [e1] at e
  cases ok1 with
  | false => cases e; exact h1
  | true =>
    simp only at e
    cases e2 : c1.finish (room - w.length) with
    | none => rw [e2] at e; cases e
    | some q =>
      obtain ⟨c2, o2, ok2⟩ := q
      rw [e2] at e
      cases e
      have h2 := finish_price hinv1.minv hinv1.sum e2
      simp only [List.length_append]
      omega

theorem code_price {c c' : Cmp} {P : Bool → List UInt8} {B E : List UInt8} (h : CInv c P B E) {op : Mux.MOp} {out : List UInt8}
    (hal : (COp.code op).allowed c = true) (e : c.code op = some (c', out)) : c'.price + 4096 * out.length ≤ c.price + op.price := by
  simp only [COp.allowed, Bool.and_eq_true, decide_eq_true_eq] at hal
  obtain ⟨⟨-, hal⟩, -⟩ := hal
  unfold Cmp.code at e
  cases e1 : op.run c.mux with
  | none => rw [e1] at e; cases e
  | some q =>
    obtain ⟨m, o⟩ := q
    rw [e1] at e
    cases e
    have h1 := Mux.runOps_price [op] c.mux h.minv (by rw [Mux.legal, hal, Bool.true_and, e1]; rfl) m o
      (by simp [Mux.runOps, e1])
    simp only [List.map_cons, List.map_nil, List.sum_cons, List.sum_nil, Nat.add_zero] at h1
    simp only [Cmp.price]
    omega

theorem crun_price : ∀ (ops : List COp) {c c' : Cmp} {P : Bool → List UInt8} {B E out : List UInt8}, CInv c P B E →
    clegal c ops = true → crun c ops = some (c', out) →
    c'.price + 4096 * out.length ≤ c.price + ((codeOps ops).map Mux.MOp.price).sum := by
  intro ops
  induction ops with
  | nil => intro c c' P B E out _ _ e; cases e; simp [codeOps]
  | cons op ops ih =>
    intro c c' P B E out h hl e
    rw [clegal, Bool.and_eq_true] at hl
    obtain ⟨hal, hl⟩ := hl
    obtain ⟨c1, o1, B1, e1, h1, -⟩ := op_spec h op hal
    rw [e1] at hl
    simp only [crun, e1, Option.bind_some] at e
    cases e2 : crun c1 ops with
    | none => rw [e2] at e; cases e
    | some q =>
      obtain ⟨c2, o2⟩ := q
      rw [e2] at e
      cases e
      have hrest := ih h1 hl e2
      simp only [List.length_append]
      cases op with
      | begin room =>
        have h2 : c1.price + 4096 * o1.length ≤ c.price := by
          simp only [COp.run, Option.some.injEq, Prod.mk.injEq] at e1
          obtain ⟨rfl, rfl⟩ := e1
          exact header_price h.le rfl
        simp only [codeOps]
        omega
      | code op =>
        have h2 := code_price h hal e1
        simp only [codeOps, List.map_cons, List.sum_cons]
        omega
      | flush room =>
        have h2 : c1.price + 4096 * o1.length ≤ c.price := by
          simp only [COp.run] at e1
          cases e3 : c.flush room with
          | none => rw [e3] at e1; cases e1
          | some q =>
            rw [e3] at e1
            cases e1
            exact flush_price h e3
        simp only [codeOps]
        omega

/-! ## The theorems -/

/-- **C103.** Whatever the coders hand over and however the output buffers come, what has been written is at most 27 bytes, the bytes of
the coders, one more for each 4096 of them, and three for each time a coder handed over at least a byte. -/
theorem container_overhead (w : UInt8) (ops : List COp) (hl : clegal (.new w) ops = true) :
    ∃ c out, crun (.new w) ops = some (c, out) ∧
      out.length ≤ Mux.total (codeOps ops) + Mux.total (codeOps ops) / 4096 + 3 * Mux.stores (codeOps ops) + 27 := by
  obtain ⟨c, out, B, e, -, -⟩ := crun_spec ops (cinv_new w) hl
  refine ⟨c, out, e, ?_⟩
  have h1 := crun_price ops (cinv_new w) hl e
  have h2 : (Cmp.new w).price = 4096 * 27 := by
    have h3 : Mux.price Mux.Mux.new + 4096 * (Mux.eofRest Mux.Mux.new.eof).length = 12288 := by decide +kernel
    simp only [Cmp.price, Cmp.new, Stage.written]
    rw [h3]
  rw [Mux.sum_price, h2] at h1
  omega

/-- **C103.** When flushing has reported success, at least 27 bytes and the bytes of the coders were written. -/
theorem container_complete (w : UInt8) (ops : List COp) (hl : clegal (.new w) ops = true) :
    ∃ c out, crun (.new w) ops = some (c, out) ∧
      (c.stage = .done → (coded false ops).length + (coded true ops).length + 27 ≤ out.length) := by
  obtain ⟨c, out, e, h⟩ := container_layout w ops hl
  refine ⟨c, out, e, fun hd => ?_⟩
  obtain ⟨body, ⟨s, hrun, heof, hf, ht⟩, rfl⟩ := h hd
  have h1 := Mux.runAll_size hrun
  rw [hf, ht, heof] at h1
  simp only [Mux.Scan.init, Mux.eofRest, List.length_nil, List.length_cons] at h1
  rw [fileOf_eq]
  simp only [List.length_append, makeHeader_length, trailer_length]
  omega

/-- The bytes of both bounds are the same. -/
theorem total_coded (ops : List COp) : Mux.total (codeOps ops) = (coded false ops).length + (coded true ops).length := by
  induction ops with
  | nil => rfl
  | cons op ops ih =>
    cases op <;> simp only [codeOps, coded, Mux.total, Mux.pushed, List.map_cons, List.flatten_cons, List.length_append] at ih ⊢ <;> omega

/-! ## The theorems are not vacuous -/

/-- A byte for each coder. -/
def twoBytes : List COp := [.begin 9, .begin 20, .code (.push false [7]), .code (.push true [8]), .flush 6, .flush 100]

example : clegal (.new 22) twoBytes = true := by decide +kernel

example : (crun (.new 22) twoBytes).map (fun p => p.2.length) = some 35 ∧ Mux.total (codeOps twoBytes) = 2 ∧
    Mux.stores (codeOps twoBytes) = 2 := by decide +kernel

end Divans.Frame
