import Verif.IoProps
import Verif.IoCodec

/-!
# A reader around a codec that keeps a contract
-/

namespace Divans.Io

variable {σ : Type}

/-! ## Specification -/

/-- The bytes a source will give. -/
def srcBytes : List Ev → List UInt8
  | [] => []
  | .data bs :: t => bs ++ srcBytes t
  | _ :: t => srcBytes t

/-- A source without errors, whose end is not in the middle.  It may be interrupted. -/
def Clean (src : List Ev) : Prop := ∀ e ∈ src, e ≠ .fail ∧ e ≠ .data []

/-- How a caller who reads to the end comes to an end. -/
inductive Stop where
  /-- `read` returned 0 -/
  | eof
  /-- `read` returned an error of the source -/
  | ioErr
  /-- `read` returned an error of the codec -/
  | codecErr
  /-- the caller gave up -/
  | more
  deriving DecidableEq, Repr

/-- A caller who reads to the end (`read_to_end`, `io::copy`) with nonempty buffers of the given sizes: the bytes
read and how it ended.  `none`: some `read` does not return within `fuel` rounds.  `p` is the codec. -/
def readToEnd (p : Proc σ) (fuel : Nat) : List Nat → Reader σ → List Entry →
    Option (Reader σ × List Entry × List UInt8 × Stop)
  | [], s, log => some (s, log, [], .more)
  | cap :: caps, s, log =>
    match s.read p fuel cap log with
    | none => none
    | some (s', log', .ok []) => some (s', log', [], .eof)
    | some (s', log', .ok (b :: bs)) =>
      (readToEnd p fuel caps s' log').map fun x => (x.1, x.2.1, (b :: bs) ++ x.2.2.1, x.2.2.2)
    | some (s', log', .ioErr) => some (s', log', [], .ioErr)
    | some (s', log', .codecErr) => some (s', log', [], .codecErr)

/-! ## The contract -/

/-- What the adaptor needs of its codec.  `P c rest out`: the codec is in state `c`, with `rest` still to be
offered and `out` given out.  `Due c`: more output is about to come.  `Fin c out`: all is done.  `Bad`: the
codec may fail.  `lt`: calls make progress. -/
structure Contract (p : Nat → Proc σ) (P : σ → List UInt8 → List UInt8 → Prop) (Due : σ → Prop)
    (Fin : σ → List UInt8 → Prop) (Bad : Prop) (lt : σ × List UInt8 × List UInt8 → σ × List UInt8 × List UInt8 → Prop) :
    Prop where
  process : ∀ c inp fut out cap, P c (inp ++ fut) out → inp ≠ [] → 0 < cap →
    ∃ k c' n o r, (∀ fuel, k ≤ fuel → (p fuel).process c inp cap = (c', n, o, r)) ∧
      n ≤ inp.length ∧ o.length ≤ cap ∧ (r ≠ .failure → P c' (inp.drop n ++ fut) (out ++ o)) ∧
      (r ≠ .failure → lt (c', inp.drop n ++ fut, out ++ o) (c, inp ++ fut, out)) ∧
      (r = .failure → Bad) ∧
      (r = .needsInput → n = inp.length ∧ (fut = [] → Due c → o ≠ [])) ∧
      (r = .needsOutput → o ≠ [] ∧ (n < inp.length → Due c')) ∧
      (r = .success → inp.drop n ++ fut = [] ∧ Fin c' (out ++ o))
  close : ∀ c out cap, P c [] out → 0 < cap →
    ∃ k c' o r, (∀ fuel, k ≤ fuel → (p fuel).close c cap = (c', o, r)) ∧
      o.length ≤ cap ∧ (r ≠ .failure → P c' [] (out ++ o)) ∧
      (r = .needsOutput → o ≠ []) ∧ r ≠ .needsInput ∧
      (r = .failure → Bad) ∧ (r = .success → Fin c' (out ++ o)) ∧
      (r ≠ .failure → o ≠ [] → lt (c', [], out ++ o) (c, [], out))

/-- The reader, between its calls of the codec. -/
structure Held (P : σ → List UInt8 → List UInt8 → Prop) (Due : σ → Prop) (s : Reader σ) (out : List UInt8) :
    Prop where
  off : s.off ≤ s.len
  len : s.len ≤ s.buf.length
  place : s.avail = 0 → s.len < s.buf.length
  err : s.err = false
  clean : Clean s.src
  eof : s.eof = true → s.src = []
  ok : P s.cd (s.pending ++ srcBytes s.src) out
  due : 0 < s.avail → Due s.cd

theorem Clean.tail {e : Ev} {t : List Ev} (h : Clean (e :: t)) : Clean t := fun x hx => h x (by simp [hx])

/-- `rfl` or `trivial`. -/
local macro "tr" : term => `(by first | rfl | trivial)

theorem pull_got (s : Reader σ) (h1 : s.off ≤ s.len) (h2 : s.len ≤ s.buf.length) (hc : Clean s.src)
    (he : s.eof = true → s.src = []) :
    s.pull.1.cd = s.cd ∧ s.pull.1.off ≤ s.pull.1.len ∧ s.pull.1.len ≤ s.pull.1.buf.length ∧
    s.pull.1.buf.length = s.buf.length ∧ s.pull.1.err = s.err ∧ s.pull.1.flushed = s.flushed ∧
    Clean s.pull.1.src ∧ (s.pull.1.eof = true → s.pull.1.src = []) ∧
    s.pull.1.pending ++ srcBytes s.pull.1.src = s.pending ++ srcBytes s.src ∧
    srcSize s.pull.1.src ≤ srcSize s.src ∧
    (s.pull.2 = none ∧ s.pull.1 = s ∧ (s.len = s.buf.length ∨ s.eof = true) ∨
     s.pull.2 = some .ended ∧ s.pull.1.eof = true ∧ s.pull.1.pending = s.pending ∧ s.pull.1.avail = s.avail ∨
     s.pull.2 = some .again ∧ s.pull.1.avail = s.avail ∧ s.pull.1.eof = s.eof ∧ s.pull.1.len = s.len ∧
       srcSize s.pull.1.src < srcSize s.src ∨
     (∃ bs, s.pull.2 = some (.got bs)) ∧ s.eof = false ∧ s.pull.1.eof = false ∧ 0 < s.pull.1.avail ∧
       srcSize s.pull.1.src < srcSize s.src) := by
  obtain ⟨cd, buf, off, len, eof, flushed, err, src⟩ := s
  simp only at h1 h2 hc he
  unfold Reader.pull
  by_cases hr : len < buf.length ∧ eof = false
  · simp only [if_pos hr]
    match src, hc, he with
    | [], hc, he =>
      refine ⟨rfl, h1, h2, rfl, rfl, rfl, hc, fun _ => rfl, rfl, Nat.le_refl _, Or.inr (Or.inl ⟨rfl, rfl, rfl, rfl⟩)⟩
    | .interrupted :: t, hc, he =>
      refine ⟨rfl, h1, h2, rfl, rfl, rfl, hc.tail, fun h0 => ?_, rfl, by simp [srcSize], Or.inr (Or.inr (Or.inl ⟨rfl, rfl, rfl, rfl, by simp [srcSize]⟩))⟩
      rw [hr.2] at h0; cases h0
    | .fail :: t, hc, he => exact absurd rfl (hc .fail (by simp)).1
    | .data [] :: t, hc, he => exact absurd rfl (hc (.data []) (by simp)).2
    | .data (b :: bs) :: t, hc, he =>
      simp only
      obtain ⟨k, hk⟩ : ∃ k, k = min (buf.length - len) (b :: bs).length := ⟨_, rfl⟩
      rw [← hk]
      have hk1 : 1 ≤ k := by
        have : 1 ≤ (b :: bs).length := by simp
        omega
      have hk2 : len + k ≤ buf.length := by omega
      have hk3 : k ≤ (b :: bs).length := by omega
      have hlen : ((b :: bs).take k).length = k := by rw [List.length_take]; omega
      have hput : (put buf len ((b :: bs).take k)).length = buf.length := put_length (by rw [hlen]; exact hk2)
      have htk : (put buf len ((b :: bs).take k)).take (len + k) = buf.take len ++ (b :: bs).take k := by
        have := put_take (buf := buf) (bs := (b :: bs).take k) (k := len) h2
        rw [hlen] at this
        exact this
      have hpend : ((put buf len ((b :: bs).take k)).take (len + k)).drop off = (buf.take len).drop off ++ (b :: bs).take k := by
        rw [htk, List.drop_append_of_le_length]
        rw [List.length_take]; omega
      have hsz : srcSize (if k < (b :: bs).length then .data ((b :: bs).drop k) :: t else t) < srcSize (.data (b :: bs) :: t) := by
        by_cases hlt : k < (b :: bs).length
        · rw [if_pos hlt]
          simp only [srcSize, List.length_drop]
          omega
        · rw [if_neg hlt]
          simp only [srcSize]
          omega
      have hbytes : (b :: bs).take k ++ srcBytes (if k < (b :: bs).length then .data ((b :: bs).drop k) :: t else t) =
          (b :: bs) ++ srcBytes t := by
        by_cases hlt : k < (b :: bs).length
        · rw [if_pos hlt]
          simp only [srcBytes]
          rw [← List.append_assoc, List.take_append_drop]
        · rw [if_neg hlt, List.take_of_length_le (by omega)]
      refine ⟨tr, by omega, by rw [hput]; exact hk2, hput, tr, tr, ?_, fun h0 => ?_, ?_, Nat.le_of_lt hsz,
        Or.inr (Or.inr (Or.inr ⟨⟨_, rfl⟩, hr.2, hr.2, by simp only [Reader.avail]; omega, hsz⟩))⟩
      · by_cases hlt : k < (b :: bs).length
        · rw [if_pos hlt]
          intro e he'
          rcases List.mem_cons.1 he' with rfl | he'
          · refine ⟨by simp, fun h0 => ?_⟩
            simp only [Ev.data.injEq] at h0
            have := congrArg List.length h0
            rw [List.length_drop, List.length_nil] at this
            omega
          · exact hc e (by simp [he'])
        · rw [if_neg hlt]; exact hc.tail
      · rw [hr.2] at h0; cases h0
      · simp only [Reader.pending]
        rw [hpend, List.append_assoc, hbytes]
        rfl
  · simp only [if_neg hr]
    refine ⟨tr, h1, h2, tr, tr, tr, hc, he, tr, Nat.le_refl _, Or.inl ⟨tr, tr, ?_⟩⟩
    rcases Decidable.em (eof = true) with h0 | h0
    · exact Or.inr h0
    · exact Or.inl (by
        have : eof = false := by simpa using h0
        have := fun hx => hr ⟨hx, this⟩
        have h3 : ¬ len < buf.length := this
        exact Nat.le_antisymm h2 (Nat.le_of_not_lt h3))

theorem front_held (s : Reader σ) (h1 : s.off ≤ s.len) (h2 : s.len ≤ s.buf.length) (hb : 0 < s.buf.length) (ha : s.avail = 0) :
    s.front.cd = s.cd ∧ s.front.off ≤ s.front.len ∧ s.front.len ≤ s.front.buf.length ∧
    s.front.buf.length = s.buf.length ∧ s.front.err = s.err ∧ s.front.flushed = s.flushed ∧ s.front.src = s.src ∧
    s.front.eof = s.eof ∧ s.front.pending = [] ∧ s.front.avail = 0 ∧ s.front.len < s.front.buf.length := by
  obtain ⟨cd, buf, off, len, eof, flushed, err, src⟩ := s
  simp only [Reader.avail] at h1 h2 hb ha
  have hol : off = len := by omega
  subst hol
  unfold Reader.front
  simp only
  by_cases hc : off = buf.length
  · simp only [if_pos hc]
    exact ⟨tr, by simp, by simp, tr, tr, tr, tr, tr, by simp [Reader.pending], by simp [Reader.avail], hb⟩
  · simp only [if_neg hc]
    by_cases hd : off + 256 > buf.length ∧ off - off < off
    · simp only [if_pos hd]
      have hp : (put buf 0 (List.take (off - off) (List.drop off buf))).length = buf.length := put_length (by simp)
      rw [hp]
      exact ⟨tr, by simp, by omega, tr, tr, tr, tr, tr, by simp [Reader.pending], by simp [Reader.avail], by omega⟩
    · simp only [if_neg hd]
      refine ⟨tr, by simp, h2, tr, tr, tr, tr, tr, ?_, by simp [Reader.avail], by omega⟩
      simp only [Reader.pending]
      exact List.drop_of_length_le (by rw [List.length_take]; omega)

/-! ## The loop -/

/-- One round of the loop of `read` after the source was asked, with the result of the call of the codec. -/
def after (p : Proc σ) (cap fuel : Nat) (needs : Bool) (log : List Entry) (pl : Reader σ × Option Entry)
    (c : Reader σ × Entry × List UInt8 × Res) : Option (Reader σ × List Entry × Got) :=
  let log2 := log ++ pl.2.toList ++ [c.2.1]
  if c.1.avail = 0 ∧ c.1.err = true then some ({ c.1 with err := false }, log2, .ioErr)
  else
    let s3 := if c.1.avail = 0 then c.1.front else c.1
    let needs3 := if c.1.avail = 0 then true else stillNeeds pl.2 needs
    if c.2.2.2 = .failure then some (s3, log2, .codecErr)
    else if c.2.2.2 = .success ∧ s3.eof = true ∧ c.1.avail = 0 ∧ s3.flushed = true then some (s3, log2, .ok c.2.2.1)
    else if c.2.2.1 = [] then Reader.loop p cap fuel s3 needs3 log2
    else some (s3, log2, .ok c.2.2.1)

theorem loop_round (p : Proc σ) (cap fuel : Nat) (s : Reader σ) (needs : Bool) (log : List Entry)
    (h1 : ¬ (needs = true ∧ s.eof = true)) (h2 : s.pull.2 ≠ some .again) :
    Reader.loop p cap (fuel + 1) s needs log = after p cap fuel needs log s.pull (s.pull.1.call p cap) := by
  rw [Reader.loop.eq_def]
  simp only
  rw [if_neg h1, if_neg h2]
  unfold after
  simp only
  by_cases h3 : (s.pull.1.call p cap).1.avail = 0 ∧ (s.pull.1.call p cap).1.err = true
  · rw [if_pos h3, if_pos h3]
  · rw [if_neg h3, if_neg h3]
    cases h4 : (s.pull.1.call p cap).2.2.2 <;> simp

theorem loop_again (p : Proc σ) (cap fuel : Nat) (s : Reader σ) (needs : Bool) (log : List Entry)
    (h1 : ¬ (needs = true ∧ s.eof = true)) (h2 : s.pull.2 = some .again) :
    Reader.loop p cap (fuel + 1) s needs log = Reader.loop p cap fuel s.pull.1 needs (log ++ [.again]) := by
  rw [Reader.loop.eq_def]
  simp only
  rw [if_neg h1, if_pos h2, h2]
  rfl

/-- What a reader has before it. -/
def Reader.task (s : Reader σ) (out : List UInt8) : σ × List UInt8 × List UInt8 := (s.cd, s.pending ++ srcBytes s.src, out)

/-- What one `read` comes to.  `x` is what the reader had before it. -/
def Result (P : σ → List UInt8 → List UInt8 → Prop) (Due : σ → Prop) (Fin : σ → List UInt8 → Prop) (Bad : Prop)
    (lt : σ × List UInt8 × List UInt8 → σ × List UInt8 × List UInt8 → Prop) (x : σ × List UInt8 × List UInt8)
    (out : List UInt8) (s : Reader σ) (g : Got) : Prop :=
  (g = .codecErr ∧ Bad) ∨ ∃ bs, g = .ok bs ∧ Held P Due s (out ++ bs) ∧ (bs = [] → Fin s.cd out) ∧
    (bs ≠ [] → Relation.TransGen lt (s.task (out ++ bs)) x)

variable {p : Nat → Proc σ} {P : σ → List UInt8 → List UInt8 → Prop} {Due : σ → Prop} {Fin : σ → List UInt8 → Prop}
  {Bad : Prop} {lt : σ × List UInt8 × List UInt8 → σ × List UInt8 × List UInt8 → Prop}

/-- After a call that left nothing to offer. -/
theorem held_front {s : Reader σ} {out : List UInt8} (h1 : s.off ≤ s.len) (h2 : s.len ≤ s.buf.length)
    (h3 : 0 < s.buf.length) (h4 : s.err = false) (h5 : Clean s.src) (h6 : s.eof = true → s.src = [])
    (h7 : s.avail = 0) (h8 : P s.cd (srcBytes s.src) out) : Held P Due s.front out := by
  obtain ⟨f1, f2, f3, f4, f5, f6, f7, f8, f9, f10, f11⟩ := front_held s h1 h2 h3 h7
  refine ⟨f2, f3, fun _ => f11, f5.trans h4, by rw [f7]; exact h5, by rw [f7, f8]; exact h6, ?_, fun h0 => ?_⟩
  · rw [f1, f7, f9]; exact h8
  · rw [f10] at h0; exact absurd h0 (Nat.lt_irrefl 0)

theorem pending_len (s : Reader σ) (h2 : s.len ≤ s.buf.length) : s.pending.length = s.avail := by
  simp only [Reader.pending, Reader.avail, List.length_drop, List.length_take]
  omega

theorem loop_ok (hc : Contract p P Due Fin Bad lt) (hwf : WellFounded lt) {cap : Nat} (hcap : 0 < cap) :
    ∀ (x : σ × List UInt8 × List UInt8) (m : Nat) (s : Reader σ) (needs : Bool) (log : List Entry) (out : List UInt8),
      (s.cd, s.pending ++ srcBytes s.src, out) = x → srcSize s.src < m → Held P Due s out →
      (needs = true → s.avail = 0 ∧ (s.eof = false ∨ Fin s.cd out)) →
      ∃ k s' log' g, (∀ f, k ≤ f → ∀ n, k ≤ n → s.loop (p f) cap n needs log = some (s', log', g)) ∧
        Result P Due Fin Bad lt x out s' g := by
  intro x
  induction x using hwf.induction with
  | _ x ih =>
  intro m
  induction m with
  | zero => intro s needs log out hx hm; omega
  | succ m ihm =>
    intro s needs log out hx hm hh hn
    by_cases h0 : needs = true ∧ s.eof = true
    · refine ⟨1, s, log, .ok [], fun f _ n hn' => ?_, Or.inr ⟨[], rfl, by rw [List.append_nil]; exact hh, fun _ => ?_, fun h => absurd rfl h⟩⟩
      · obtain ⟨n, rfl⟩ : ∃ n', n = n' + 1 := ⟨n - 1, by omega⟩
        rw [Reader.loop.eq_def]
        simp only
        rw [if_pos h0]
      · rcases (hn h0.1).2 with h1 | h1
        · rw [h0.2] at h1; cases h1
        · exact h1
    obtain ⟨g1, g2, g3, g4, g5, g6, g7, g8, g9, g10, g11⟩ := pull_got s hh.off hh.len hh.clean hh.eof
    by_cases hag : s.pull.2 = some .again
    · have hcase : s.pull.1.avail = s.avail ∧ s.pull.1.eof = s.eof ∧ s.pull.1.len = s.len ∧ srcSize s.pull.1.src < srcSize s.src := by
        rcases g11 with h | h | h | h
        · rw [h.1] at hag; cases hag
        · rw [h.1] at hag; cases hag
        · exact h.2
        · obtain ⟨⟨bs, h⟩, _⟩ := h
          rw [h] at hag; cases hag
      obtain ⟨a1, a2, a3, a4⟩ := hcase
      have hh' : Held P Due s.pull.1 out := by
        refine ⟨g2, g3, fun h1 => ?_, g5.trans hh.err, g7, g8, by rw [g1, g9]; exact hh.ok, fun h1 => ?_⟩
        · rw [a3, g4]; exact hh.place (by rw [← a1]; exact h1)
        · rw [g1]; exact hh.due (by rw [← a1]; exact h1)
      obtain ⟨k, s', log', g, e, hr⟩ := ihm s.pull.1 needs (log ++ [.again]) out (by rw [g1, g9]; exact hx) (by omega) hh'
        (by rw [a1, a2, g1]; exact hn)
      refine ⟨k + 1, s', log', g, fun f hf n hn' => ?_, hr⟩
      obtain ⟨n, rfl⟩ : ∃ n', n = n' + 1 := ⟨n - 1, by omega⟩
      rw [loop_again (p f) cap n s needs log h0 hag]
      exact e f (by omega) n (by omega)
    have herr : s.pull.1.err = false := g5.trans hh.err
    have hbuf : 0 < s.pull.1.buf.length := by
      rw [g4]
      have h1 := hh.place
      have h2 := hh.off
      have h3 := hh.len
      rcases Nat.eq_zero_or_pos s.avail with h4 | h4
      · have := h1 h4; omega
      · simp only [Reader.avail] at h4; omega
    have hP : P s.pull.1.cd (s.pull.1.pending ++ srcBytes s.pull.1.src) out := by rw [g1, g9]; exact hh.ok
    have hx' : (s.pull.1.cd, s.pull.1.pending ++ srcBytes s.pull.1.src, out) = x := by rw [g1, g9]; exact hx
    by_cases hav : s.pull.1.avail = 0
    · have heof : s.pull.1.eof = true := by
        rcases g11 with h | h | h | h
        · rcases h.2.2 with h1 | h1
          · rw [h.2.1] at hav
            have := hh.place hav
            omega
          · rw [h.2.1]; exact h1
        · exact h.2.1
        · exact absurd h.1 hag
        · have := h.2.2.2.1; omega
      have hsrc := g8 heof
      have hpend : s.pull.1.pending = [] := List.eq_nil_of_length_eq_zero (by rw [pending_len _ g3]; exact hav)
      rw [hsrc, hpend] at hP
      simp only [srcBytes, List.append_nil] at hP
      obtain ⟨k, c', o, r, e1, e2, e3, e4, e5, e6, e7, e8⟩ := hc.close s.pull.1.cd out cap hP hcap
      obtain ⟨s2, hs2⟩ : ∃ s2 : Reader σ, s2 = { s.pull.1 with cd := c', flushed := true } := ⟨_, rfl⟩
      have hcall : ∀ f, k ≤ f → s.pull.1.call (p f) cap = (s2, .closed o r, o, r) := by
        intro f hf
        unfold Reader.call
        rw [if_pos hav, e1 f hf, hs2]
      have v1 : s2.avail = 0 := by rw [hs2]; exact hav
      have v2 : s2.err = false := by rw [hs2]; exact herr
      have v3 : s2.src = [] := by rw [hs2]; exact hsrc
      have v4 : s2.cd = c' := by rw [hs2]
      have v5 : s2.off ≤ s2.len := by rw [hs2]; exact g2
      have v6 : s2.len ≤ s2.buf.length := by rw [hs2]; exact g3
      have v7 : 0 < s2.buf.length := by rw [hs2]; exact hbuf
      obtain ⟨f1, f2, f3, f4, f5, f6, f7, f8, f9, f10, f11⟩ := front_held s2 v5 v6 v7 v1
      have hheld : r ≠ .failure → Held P Due s2.front (out ++ o) := by
        intro hrf
        refine held_front v5 v6 v7 v2 (by rw [v3]; intro e he; cases he) (fun _ => v3) v1 ?_
        rw [v4, v3]; exact e3 hrf
      have hround : ∀ f, k ≤ f → ∀ n, Reader.loop (p f) cap (n + 1) s needs log =
          if r = .failure then some (s2.front, log ++ s.pull.2.toList ++ [.closed o r], .codecErr)
          else some (s2.front, log ++ s.pull.2.toList ++ [.closed o r], .ok o) := by
        intro f hf n
        rw [loop_round (p f) cap n s needs log h0 hag, hcall f hf]
        unfold after
        simp only
        rw [if_neg (by rw [v2]; simp), if_pos v1, if_pos v1]
        by_cases hr : r = .failure
        · rw [if_pos hr, if_pos hr]
        · rw [if_neg hr, if_neg hr]
          by_cases hs : r = .success
          · rw [if_pos ⟨hs, by rw [f8, hs2]; exact heof, v1, by rw [f6, hs2]⟩]
          · rw [if_neg (fun h => hs h.1)]
            have : r = .needsOutput := by
              cases r
              · exact absurd rfl hs
              · exact absurd rfl e5
              · rfl
              · exact absurd rfl hr
            rw [if_neg (e4 this)]
      by_cases hr : r = .failure
      · refine ⟨k + 1, s2.front, log ++ s.pull.2.toList ++ [.closed o r], .codecErr, fun f hf n hn' => ?_, Or.inl ⟨rfl, e6 hr⟩⟩
        obtain ⟨n, rfl⟩ : ∃ n', n = n' + 1 := ⟨n - 1, by omega⟩
        rw [hround f (by omega) n, if_pos hr]
      · refine ⟨k + 1, s2.front, log ++ s.pull.2.toList ++ [.closed o r], .ok o, fun f hf n hn' => ?_, Or.inr ⟨o, rfl, hheld hr, fun ho => ?_, fun ho => ?_⟩⟩
        · obtain ⟨n, rfl⟩ : ∃ n', n = n' + 1 := ⟨n - 1, by omega⟩
          rw [hround f (by omega) n, if_neg hr]
        · have hs : r = .success := by
            cases r
            · rfl
            · exact absurd rfl e5
            · exact absurd ho (e4 rfl)
            · exact absurd rfl hr
          have := e7 hs
          rw [ho, List.append_nil] at this
          rw [f1, v4]
          exact this
        · refine .single ?_
          have := e8 hr ho
          rw [hsrc, hpend] at hx'
          rw [← hx']
          unfold Reader.task
          rw [f1, f7, f9, v4, v3]
          exact this
    · have hne : s.pull.1.pending ≠ [] := by
        intro h
        have := pending_len s.pull.1 g3
        rw [h] at this
        exact hav this.symm
      obtain ⟨k, c', n0, o, r, e1, e2, e3, e4, e5, e6, e7, e8, e9⟩ := hc.process s.pull.1.cd s.pull.1.pending (srcBytes s.pull.1.src) out cap hP hne hcap
      obtain ⟨s2, hs2⟩ : ∃ s2 : Reader σ, s2 = { s.pull.1 with cd := c', off := s.pull.1.off + n0 } := ⟨_, rfl⟩
      have hcall : ∀ f, k ≤ f → s.pull.1.call (p f) cap = (s2, .fed s.pull.1.pending n0 o r, o, r) := by
        intro f hf
        unfold Reader.call
        rw [if_neg hav, e1 f hf, hs2]
      rw [pending_len _ g3] at e2
      have e2' : n0 ≤ s.pull.1.len - s.pull.1.off := e2
      have w1 : s2.avail = s.pull.1.avail - n0 := by rw [hs2]; simp only [Reader.avail]; omega
      have v2 : s2.err = false := by rw [hs2]; exact herr
      have v3 : s2.src = s.pull.1.src := by rw [hs2]
      have v4 : s2.cd = c' := by rw [hs2]
      have v5 : s2.off ≤ s2.len := by
        rw [hs2]
        show s.pull.1.off + n0 ≤ s.pull.1.len
        omega
      have v6 : s2.len ≤ s2.buf.length := by rw [hs2]; exact g3
      have v7 : 0 < s2.buf.length := by rw [hs2]; exact hbuf
      have v8 : s2.pending = s.pull.1.pending.drop n0 := by
        rw [hs2]; simp only [Reader.pending, List.drop_drop]
      have v9 : s2.eof = s.pull.1.eof := by rw [hs2]
      have hP2 : r ≠ .failure → P s2.cd (s2.pending ++ srcBytes s2.src) (out ++ o) := by rw [v4, v8, v3]; exact e4
      obtain ⟨s3, hs3⟩ : ∃ s3, s3 = (if s2.avail = 0 then s2.front else s2) := ⟨_, rfl⟩
      have hall : r = .needsInput ∨ r = .success → s2.avail = 0 := by
        rintro (h | h)
        · have := (e7 h).1
          rw [pending_len _ g3] at this
          omega
        · have := congrArg List.length (e9 h).1
          rw [List.length_append, List.length_drop, List.length_nil, pending_len _ g3] at this
          omega
      have hfront : s3.cd = s2.cd ∧ s3.pending = s2.pending ∧ s3.src = s2.src ∧ s3.eof = s2.eof ∧ s3.avail = s2.avail := by
        by_cases hz : s2.avail = 0
        · obtain ⟨f1, f2, f3, f4, f5, f6, f7, f8, f9, f10, f11⟩ := front_held s2 v5 v6 v7 hz
          rw [hs3, if_pos hz]
          refine ⟨f1, ?_, f7, f8, f10.trans hz.symm⟩
          rw [f9]
          exact (List.eq_nil_of_length_eq_zero (by rw [pending_len _ v6]; exact hz)).symm
        · rw [hs3, if_neg hz]; exact ⟨rfl, rfl, rfl, rfl, rfl⟩
      obtain ⟨f1, f2, f3, f4, f5⟩ := hfront
      have hheld : r ≠ .failure → Held P Due s3 (out ++ o) := by
        intro hrf
        by_cases hz : s2.avail = 0
        · rw [hs3, if_pos hz]
          refine held_front v5 v6 v7 v2 (by rw [v3]; exact g7) (by rw [v9, v3]; exact g8) hz ?_
          have : s2.pending = [] := List.eq_nil_of_length_eq_zero (by rw [pending_len _ v6]; exact hz)
          have hP3 := hP2 hrf
          rw [this] at hP3
          exact hP3
        · rw [hs3, if_neg hz]
          refine ⟨v5, v6, fun h => absurd h hz, v2, by rw [v3]; exact g7, by rw [v9, v3]; exact g8, hP2 hrf, fun _ => ?_⟩
          have hr : r = .needsOutput := by
            cases r
            · exact absurd (hall (Or.inr rfl)) hz
            · exact absurd (hall (Or.inl rfl)) hz
            · rfl
            · exact absurd rfl hrf
          rw [v4]
          refine (e8 hr).2 ?_
          rw [pending_len _ g3]
          omega
      have hround : ∀ f, k ≤ f → ∀ n, Reader.loop (p f) cap (n + 1) s needs log =
          if r = .failure then some (s3, log ++ s.pull.2.toList ++ [.fed s.pull.1.pending n0 o r], .codecErr)
          else if r = .success ∧ s3.eof = true ∧ s2.avail = 0 ∧ s3.flushed = true then
            some (s3, log ++ s.pull.2.toList ++ [.fed s.pull.1.pending n0 o r], .ok o)
          else if o = [] then Reader.loop (p f) cap n s3 (if s2.avail = 0 then true else stillNeeds s.pull.2 needs)
            (log ++ s.pull.2.toList ++ [.fed s.pull.1.pending n0 o r])
          else some (s3, log ++ s.pull.2.toList ++ [.fed s.pull.1.pending n0 o r], .ok o) := by
        intro f hf n
        rw [loop_round (p f) cap n s needs log h0 hag, hcall f hf]
        unfold after
        simp only
        rw [if_neg (by rw [v2]; simp), ← hs3]
      by_cases hr : r = .failure
      · refine ⟨k + 1, s3, log ++ s.pull.2.toList ++ [.fed s.pull.1.pending n0 o r], .codecErr, fun f hf n hn' => ?_, Or.inl ⟨rfl, e6 hr⟩⟩
        obtain ⟨n, rfl⟩ : ∃ n', n = n' + 1 := ⟨n - 1, by omega⟩
        rw [hround f (by omega) n, if_pos hr]
      have hdown : Relation.TransGen lt (s3.task (out ++ o)) x := by
        refine .single ?_
        rw [← hx']
        unfold Reader.task
        rw [f1, f2, f3, v4, v8, v3]
        exact e5 hr
      by_cases hsu : r = .success ∧ s3.eof = true ∧ s2.avail = 0 ∧ s3.flushed = true
      · refine ⟨k + 1, s3, log ++ s.pull.2.toList ++ [.fed s.pull.1.pending n0 o r], .ok o, fun f hf n hn' => ?_, Or.inr ⟨o, rfl, hheld hr, fun ho => ?_, fun _ => hdown⟩⟩
        · obtain ⟨n, rfl⟩ : ∃ n', n = n' + 1 := ⟨n - 1, by omega⟩
          rw [hround f (by omega) n, if_neg hr, if_pos hsu]
        · have := (e9 hsu.1).2
          rw [ho, List.append_nil] at this
          rw [f1, v4]
          exact this
      by_cases ho : o = []
      · have hz : s2.avail = 0 := by
          refine hall ?_
          cases r
          · exact Or.inr rfl
          · exact Or.inl rfl
          · exact absurd ho (e8 rfl).1
          · exact absurd rfl hr
        have hheld3 := hheld hr
        rw [ho, List.append_nil] at hheld3
        replace e5 := e5 hr
        rw [ho, List.append_nil] at e5
        obtain ⟨k2, s', log', g, e, hres⟩ := ih (c', s.pull.1.pending.drop n0 ++ srcBytes s.pull.1.src, out) (by rw [← hx']; exact e5)
          (srcSize s3.src + 1) s3 true (log ++ s.pull.2.toList ++ [.fed s.pull.1.pending n0 o r]) out (by rw [f1, f2, f3, v4, v8, v3]) (Nat.lt_succ_self _) hheld3
          (fun _ => by
            refine ⟨f5.trans hz, ?_⟩
            rw [f4, v9]
            rcases Decidable.em (r = .success) with hs | hs
            · have := (e9 hs).2
              rw [ho, List.append_nil] at this
              exact Or.inr (by rw [f1, v4]; exact this)
            · left
              have hni : r = .needsInput := by
                cases r
                · exact absurd rfl hs
                · rfl
                · exact absurd ho (e8 rfl).1
                · exact absurd rfl hr
              cases heof : s.pull.1.eof with
              | false => rfl
              | true =>
                exfalso
                have hsrc := g8 heof
                refine (e7 hni).2 (by rw [hsrc]; rfl) ?_ ho
                rcases g11 with h | h | h | h
                · rw [h.2.1] at hav ⊢
                  exact hh.due (by omega)
                · rw [g1]
                  exact hh.due (by rw [← h.2.2.2]; omega)
                · exact absurd h.1 hag
                · rw [h.2.2.1] at heof; cases heof)
        refine ⟨max k k2 + 1, s', log', g, fun f hf n hn' => ?_, hres.imp id fun ⟨bs, q1, q2, q3, q4⟩ => ⟨bs, q1, q2, q3, fun hb =>
          (q4 hb).tail (by rw [← hx']; exact e5)⟩⟩
        obtain ⟨n, rfl⟩ : ∃ n', n = n' + 1 := ⟨n - 1, by omega⟩
        rw [hround f (by omega) n, if_neg hr, if_neg hsu, if_pos ho, if_pos hz]
        exact e f (by omega) n (by omega)
      · refine ⟨k + 1, s3, log ++ s.pull.2.toList ++ [.fed s.pull.1.pending n0 o r], .ok o, fun f hf n hn' => ?_, Or.inr ⟨o, rfl, hheld hr, fun h => absurd h ho, fun _ => hdown⟩⟩
        obtain ⟨n, rfl⟩ : ∃ n', n = n' + 1 := ⟨n - 1, by omega⟩
        rw [hround f (by omega) n, if_neg hr, if_neg hsu, if_neg ho]

theorem read_ok (hc : Contract p P Due Fin Bad lt) (hwf : WellFounded lt) {cap : Nat} (hcap : 0 < cap)
    {s : Reader σ} {log : List Entry} {out : List UInt8} (hh : Held P Due s out) :
    ∃ k s' log' g, (∀ f, k ≤ f → ∀ n, k ≤ n → s.read (p f) n cap log = some (s', log', g)) ∧
      Result P Due Fin Bad lt (s.task out) out s' g :=
  loop_ok hc hwf hcap _ _ s false log out rfl (Nat.lt_succ_self _) hh (fun h => by cases h)

theorem readToEnd_ok (hc : Contract p P Due Fin Bad lt) (hwf : WellFounded lt) :
    ∀ (caps : List Nat) (s : Reader σ) (log : List Entry) (out : List UInt8), (∀ c ∈ caps, 0 < c) → Held P Due s out →
    ∃ k s' log' bs st, (∀ f, k ≤ f → ∀ n, k ≤ n → readToEnd (p f) n caps s log = some (s', log', bs, st)) ∧
      (∃ c rest, P c rest (out ++ bs)) ∧
      (st = .eof ∧ Fin s'.cd (out ++ bs) ∨ st = .codecErr ∧ Bad ∨ st = .more ∧ caps.length ≤ bs.length) := by
  intro caps
  induction caps with
  | nil =>
    intro s log out _ hh
    exact ⟨0, s, log, [], .more, fun _ _ _ _ => rfl, ⟨_, _, by rw [List.append_nil]; exact hh.ok⟩, Or.inr (Or.inr ⟨rfl, Nat.le_refl _⟩)⟩
  | cons cap caps ih =>
    intro s log out hpos hh
    obtain ⟨k, s', log', g, e, hr⟩ := read_ok (log := log) hc hwf (hpos cap (by simp)) hh
    rcases hr with ⟨rfl, hb⟩ | ⟨bs, rfl, hh', hfin, -⟩
    · refine ⟨k, s', log', [], .codecErr, fun f hf n hn => ?_, ⟨_, _, by rw [List.append_nil]; exact hh.ok⟩, Or.inr (Or.inl ⟨rfl, hb⟩)⟩
      rw [readToEnd, e f hf n hn]
    · cases bs with
      | nil =>
        rw [List.append_nil] at hh'
        refine ⟨k, s', log', [], .eof, fun f hf n hn => ?_, ⟨_, _, by rw [List.append_nil]; exact hh'.ok⟩,
          Or.inl ⟨rfl, by rw [List.append_nil]; exact hfin rfl⟩⟩
        rw [readToEnd, e f hf n hn]
      | cons b bs =>
        obtain ⟨k2, s2, log2, bs2, st, e2, hp2, hr2⟩ := ih s' log' (out ++ (b :: bs)) (fun c hc => hpos c (by simp [hc])) hh'
        rw [List.append_assoc] at hp2 hr2
        refine ⟨max k k2, s2, log2, (b :: bs) ++ bs2, st, fun f hf n hn => ?_, hp2, ?_⟩
        · rw [readToEnd, e f (by omega) n (by omega)]
          simp only
          rw [e2 f (by omega) n (by omega)]
          rfl
        · rcases hr2 with h | h | h
          · exact Or.inl h
          · exact Or.inr (Or.inl h)
          · refine Or.inr (Or.inr ⟨h.1, ?_⟩)
            rw [List.length_append, List.length_cons, List.length_cons]
            omega

/-- A caller who goes on reading comes to the end. -/
theorem readToEnd_ends (hc : Contract p P Due Fin Bad lt) (hwf : WellFounded lt) :
    ∀ (x : σ × List UInt8 × List UInt8) (caps : Nat → Nat) (s : Reader σ) (log : List Entry) (out : List UInt8), s.task out = x →
    (∀ i, 0 < caps i) → Held P Due s out →
    ∃ N k s' log' bs st, (∀ f, k ≤ f → ∀ n, k ≤ n →
        readToEnd (p f) n ((List.range N).map caps) s log = some (s', log', bs, st)) ∧
      (st = .eof ∧ Fin s'.cd (out ++ bs) ∨ st = .codecErr ∧ Bad) := by
  intro x
  induction x using hwf.transGen.induction with
  | _ x ih =>
  intro caps s log out hx hpos hh
  obtain ⟨k, s', log', g, e, hr⟩ := read_ok (log := log) hc hwf (hpos 0) hh
  rcases hr with ⟨rfl, hb⟩ | ⟨bs, rfl, hh', hfin, hdown⟩
  · refine ⟨1, k, s', log', [], .codecErr, fun f hf n hn => ?_, Or.inr ⟨rfl, hb⟩⟩
    rw [List.range_one, List.map_cons, readToEnd, e f hf n hn]
  · cases bs with
    | nil =>
      refine ⟨1, k, s', log', [], .eof, fun f hf n hn => ?_, Or.inl ⟨rfl, by rw [List.append_nil]; exact hfin rfl⟩⟩
      rw [List.range_one, List.map_cons, readToEnd, e f hf n hn]
    | cons b bs =>
      obtain ⟨N, k2, s2, log2, bs2, st, e2, hr2⟩ := ih _ (by rw [← hx]; exact hdown (by simp)) (fun i => caps (i + 1)) s' log'
        (out ++ (b :: bs)) rfl (fun i => hpos (i + 1)) hh'
      rw [List.append_assoc] at hr2
      refine ⟨N + 1, max k k2, s2, log2, (b :: bs) ++ bs2, st, fun f hf n hn => ?_, hr2⟩
      rw [List.range_succ_eq_map, List.map_cons, List.map_map, readToEnd, e f (by omega) n (by omega)]
      simp only
      have := e2 f (by omega) n (by omega)
      rw [show (caps ∘ Nat.succ) = fun i => caps (i + 1) from rfl, this]
      rfl

/-- A new reader. -/
theorem held_new {cd : σ} {buf : List UInt8} (hb : 0 < buf.length) (nf : Bool) {src : List Ev} (hsrc : Clean src)
    (h : P cd (srcBytes src) []) : Held P Due (Reader.new cd buf nf src) [] :=
  ⟨Nat.le_refl _, Nat.zero_le _, fun _ => hb, rfl, hsrc, fun h0 => (by cases h0), by simpa [Reader.new, Reader.pending] using h,
    fun h0 => absurd h0 (Nat.lt_irrefl 0)⟩

end Divans.Io
