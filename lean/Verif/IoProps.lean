import Verif.Io

/-
C25 and C26: the `Read` and `Write` adaptors around an arbitrary codec.
-/
namespace Divans.Io

/-! ### Specification: what a log says -/

/-- The bytes the source gave. -/
def srcData (log : List Entry) : List UInt8 :=
  log.flatMap fun
    | .got bs => bs
    | _ => []

/-- The bytes the codec took. -/
def fedBytes (log : List Entry) : List UInt8 :=
  log.flatMap fun
    | .fed inp n _ _ => inp.take n
    | _ => []

/-- The bytes the codec produced. -/
def produced (log : List Entry) : List UInt8 :=
  log.flatMap fun
    | .fed _ _ out _ => out
    | .closed out _ => out
    | _ => []

/-- The bytes the sink received. -/
def sinkBytes (log : List Entry) : List UInt8 :=
  log.flatMap fun
    | .wrote bs => bs
    | _ => []

/-- The source has reported its end, or an error. -/
def Over (log : List Entry) : Prop := Entry.ended ∈ log ∨ Entry.failed ∈ log

/-- What may happen after what: the source is not asked again after its end; the codec is shown exactly
the bytes it has not taken yet, of those read so far; it is closed only after the source has reported
its end or an error, and has been fed everything by then. -/
def Allowed (log : List Entry) : Entry → Prop
  | .got _ => ¬ Over log
  | .ended => ¬ Over log
  | .failed => ¬ Over log
  | .again => ¬ Over log
  | .fed inp n _ _ => fedBytes log ++ inp = srcData log ∧ n ≤ inp.length ∧ inp ≠ []
  | .closed _ _ => fedBytes log = srcData log ∧ Over log
  | .wrote _ => False
  | .writeFailed => False

/-- A log in which everything that happens is allowed at its time. -/
inductive Orderly : List Entry → Prop
  | nil : Orderly []
  | snoc {log e} : Orderly log → Allowed log e → Orderly (log ++ [e])

/-- A sequence of `read` calls with these buffer sizes, each with its fuel. -/
def reads {σ : Type} (p : Proc σ) (fuel : Nat) : List Nat → Reader σ → List Entry →
    Option (Reader σ × List Entry × List Got)
  | [], s, log => some (s, log, [])
  | cap :: caps, s, log =>
    match s.read p fuel cap log with
    | none => none
    | some (s', log', g) => (reads p fuel caps s' log').map fun x => (x.1, x.2.1, g :: x.2.2)

/-! ### The reader -/

theorem srcData_append (a b : List Entry) : srcData (a ++ b) = srcData a ++ srcData b := by
  simp [srcData]

theorem fedBytes_append (a b : List Entry) : fedBytes (a ++ b) = fedBytes a ++ fedBytes b := by
  simp [fedBytes]

theorem produced_append (a b : List Entry) : produced (a ++ b) = produced a ++ produced b := by
  simp [produced]

theorem over_append (a b : List Entry) : Over (a ++ b) ↔ Over a ∨ Over b := by
  simp only [Over, List.mem_append]
  constructor
  · rintro ((h | h) | (h | h))
    · exact Or.inl (Or.inl h)
    · exact Or.inr (Or.inl h)
    · exact Or.inl (Or.inr h)
    · exact Or.inr (Or.inr h)
  · rintro ((h | h) | (h | h))
    · exact Or.inl (Or.inl h)
    · exact Or.inr (Or.inl h)
    · exact Or.inl (Or.inr h)
    · exact Or.inr (Or.inr h)

theorem put_length {buf bs : List UInt8} {k : Nat} (h : k + bs.length ≤ buf.length) :
    (put buf k bs).length = buf.length := by
  simp only [put, List.length_append, List.length_take, List.length_drop]; omega

theorem put_take {buf bs : List UInt8} {k : Nat} (h : k ≤ buf.length) :
    (put buf k bs).take (k + bs.length) = buf.take k ++ bs := by
  rw [put, List.take_append_of_le_length (by simp; omega), List.take_of_length_le (by simp; omega)]

variable {σ : Type}

/-- Invariant between the steps of the loop. -/
structure Inv (s : Reader σ) (log : List Entry) : Prop where
  orderly : Orderly log
  fed : fedBytes log ++ s.pending = srcData log
  off : s.off ≤ s.len
  len : s.len ≤ s.buf.length
  eof : s.eof = true ↔ Over log
  err : s.err = true → s.eof = true

/-- At the head of the loop there is room for input whenever there is none pending. -/
def Ready (s : Reader σ) : Prop := s.avail = 0 → s.len < s.buf.length ∨ s.eof = true

theorem pending_length {s : Reader σ} (h : s.off ≤ s.len) (h' : s.len ≤ s.buf.length) :
    s.pending.length = s.avail := by
  simp only [Reader.pending, Reader.avail, List.length_drop, List.length_take]; omega

theorem pending_eq_nil {s : Reader σ} (h : s.off ≤ s.len) (h' : s.len ≤ s.buf.length) :
    s.pending = [] ↔ s.avail = 0 := by
  rw [← pending_length h h', List.length_eq_zero_iff]

theorem snoc_eof {log : List Entry} {b : Bool} {e : Entry} (he : e ≠ .ended) (he' : e ≠ .failed)
    (h : b = true ↔ Over log) : b = true ↔ Over (log ++ [e]) := by
  rw [over_append, h]
  constructor
  · exact Or.inl
  · rintro (h | h)
    · exact h
    · rcases h with h | h
      · exact absurd (List.mem_singleton.mp h).symm he
      · exact absurd (List.mem_singleton.mp h).symm he'

theorem pull_spec {s : Reader σ} {log : List Entry} (h : Inv s log) (hr : Ready s) :
    Inv s.pull.1 (log ++ s.pull.2.toList) ∧ s.pull.1.flushed = s.flushed ∧
      s.pull.1.buf.length = s.buf.length ∧ s.pull.1.cd = s.cd ∧
      (s.pull.2 = some .again → Ready s.pull.1 ∧ s.pull.1.avail = s.avail ∧ s.pull.1.eof = s.eof) ∧
      (s.pull.2 ≠ some .again → s.pull.1.avail = 0 → s.pull.1.eof = true) ∧
      ((∃ bs, s.pull.2 = some (.got bs)) ∨ s.pull.1.avail = s.avail) ∧
      produced s.pull.2.toList = [] := by
  obtain ⟨cd, buf, off, len, eof, flushed, err, src⟩ := s
  obtain ⟨h1, h2, h3, h4, h5, h6⟩ := h
  simp only at h3 h4 h5 h6
  unfold Reader.pull
  by_cases hc : len < buf.length ∧ eof = false
  · simp only [hc, and_self, if_true]
    obtain ⟨hc1, rfl⟩ := hc
    have hno : ¬ Over log := fun h => by simpa using h5.mpr h
    have he : err = false := by
      cases err
      · rfl
      · exact absurd (h6 rfl) (by simp)
    subst he
    have ended : ∀ (e : Entry), e = .ended ∨ e = .failed → ∀ b src', (b = true → True) →
        Inv (⟨cd, buf, off, len, true, flushed, b, src'⟩ : Reader σ) (log ++ [e]) := by
      intro e he b src' _
      refine ⟨.snoc h1 ?_, ?_, h3, h4, ?_, fun _ => rfl⟩
      · rcases he with rfl | rfl <;> exact hno
      · rw [fedBytes_append, srcData_append]
        rcases he with rfl | rfl <;> simpa [fedBytes, srcData, Reader.pending] using h2
      · refine ⟨fun _ => ?_, fun _ => rfl⟩
        rw [over_append]
        right
        rcases he with rfl | rfl
        · left; simp
        · right; simp
    match src with
    | [] => exact ⟨ended _ (Or.inl rfl) _ _ (fun _ => trivial), rfl, rfl, rfl, by simp, fun _ _ => rfl,
        Or.inr rfl, rfl⟩
    | .data [] :: t => exact ⟨ended _ (Or.inl rfl) _ _ (fun _ => trivial), rfl, rfl, rfl, by simp,
        fun _ _ => rfl, Or.inr rfl, rfl⟩
    | .fail :: t => exact ⟨ended _ (Or.inr rfl) _ _ (fun _ => trivial), rfl, rfl, rfl, by simp,
        fun _ _ => rfl, Or.inr rfl, rfl⟩
    | .interrupted :: t =>
      refine ⟨⟨.snoc h1 hno, ?_, h3, h4, ?_, h6⟩, rfl, rfl, rfl, fun _ => ⟨fun _ => Or.inl hc1, rfl, rfl⟩,
        by simp, Or.inr rfl, rfl⟩
      · show fedBytes (log ++ [.again]) ++ _ = srcData (log ++ [.again])
        rw [fedBytes_append, srcData_append]
        simpa [fedBytes, srcData, Reader.pending] using h2
      · exact snoc_eof (by simp) (by simp) h5
    | .data (b :: bs) :: t =>
      obtain ⟨k, hk⟩ : ∃ k, k = min (buf.length - len) (b :: bs).length := ⟨_, rfl⟩
      simp only
      rw [← hk]
      have hk0 : 0 < k := by rw [hk, List.length_cons]; omega
      have hln : ((b :: bs).take k).length = k := by rw [List.length_take]; omega
      have hpl := put_length (buf := buf) (bs := (b :: bs).take k) (k := len) (by omega)
      have hpt := put_take (buf := buf) (bs := (b :: bs).take k) (k := len) h4
      rw [hln] at hpt
      have havail : ¬ (len + k - off = 0) := by omega
      refine ⟨⟨.snoc h1 hno, ?_, ?_, ?_, ?_, h6⟩, by simp, hpl, by simp, by simp, ?_, Or.inl ⟨_, rfl⟩, rfl⟩
      · show fedBytes (log ++ [.got ((b :: bs).take k)]) ++ _ = srcData (log ++ [.got ((b :: bs).take k)])
        rw [fedBytes_append, srcData_append, ← h2]
        simp only [Reader.pending]
        rw [hpt, List.drop_append_of_le_length (by simp; omega)]
        simp [fedBytes, srcData]
      · show off ≤ len + k
        omega
      · show len + k ≤ _
        rw [hpl]; omega
      · exact snoc_eof (by simp) (by simp) h5
      · intro _ h
        exact absurd h havail
  · simp only [hc, if_false]
    refine ⟨?_, by simp, by simp, by simp, by simp, ?_, by simp, by simp [produced]⟩
    · simpa using ⟨h1, h2, h3, h4, h5, h6⟩
    · intro _ h
      rcases hr h with h' | h'
      · cases eof
        · exact absurd ⟨h', rfl⟩ hc
        · rfl
      · exact h'

theorem call_spec {p : Proc σ} (hp : p.Lawful) {s : Reader σ} {log : List Entry} (h : Inv s log)
    (he : s.avail = 0 → s.eof = true) (cap : Nat) :
    Inv (s.call p cap).1 (log ++ [(s.call p cap).2.1]) ∧
      (s.call p cap).1.buf = s.buf ∧ (s.call p cap).1.eof = s.eof ∧
      produced [(s.call p cap).2.1] = (s.call p cap).2.2.1 ∧
      ((s.avail = 0 ∧ (s.call p cap).2.1 = .closed (s.call p cap).2.2.1 (s.call p cap).2.2.2 ∧
          (s.call p cap).1.flushed = true ∧ (s.call p cap).1.avail = 0 ∧
          (s.call p cap).2.2 = (p.close s.cd cap).2) ∨
        (s.avail ≠ 0 ∧ (s.call p cap).2.1 = .fed s.pending (s.avail - (s.call p cap).1.avail)
          (s.call p cap).2.2.1 (s.call p cap).2.2.2 ∧ (s.call p cap).1.flushed = s.flushed ∧
          (s.call p cap).1.avail + (p.process s.cd s.pending cap).2.1 = s.avail ∧
          (s.call p cap).2.2 = (p.process s.cd s.pending cap).2.2)) := by
  have hpl := pending_length h.off h.len
  have hpn := pending_eq_nil h.off h.len
  obtain ⟨cd, buf, off, len, eof, flushed, err, src⟩ := s
  obtain ⟨h1, h2, h3, h4, h5, h6⟩ := h
  simp only at h3 h4 h5 h6
  unfold Reader.call
  by_cases ha : Reader.avail (⟨cd, buf, off, len, eof, flushed, err, src⟩ : Reader σ) = 0
  · rw [if_pos ha]
    have hn := hpn.mpr ha
    rw [hn, List.append_nil] at h2
    refine ⟨⟨.snoc h1 ⟨h2, h5.mp (he ha)⟩, ?_, h3, h4, ?_, h6⟩, rfl, rfl, ?_,
      Or.inl ⟨ha, rfl, rfl, ha, rfl⟩⟩
    · rw [fedBytes_append, srcData_append]
      have hn' : ∀ (c : σ) (b : Bool), Reader.pending (⟨c, buf, off, len, eof, b, err, src⟩ : Reader σ)
        = [] := fun _ _ => hn
      rw [hn']
      simpa [fedBytes, srcData, Reader.pending] using h2
    · exact snoc_eof (by simp) (by simp) h5
    · simp [produced]
  · rw [if_neg ha]
    simp only
    obtain ⟨pd, hpd⟩ : ∃ pd, pd = Reader.pending
        (⟨cd, buf, off, len, eof, flushed, err, src⟩ : Reader σ) := ⟨_, rfl⟩
    rw [← hpd] at h2 hpl hpn ⊢
    have ht := hp.taken cd pd cap
    obtain ⟨n, hn⟩ : ∃ n, n = (p.process cd pd cap).2.1 := ⟨_, rfl⟩
    rw [← hn] at ht ⊢
    have hav : Reader.avail (⟨cd, buf, off, len, eof, flushed, err, src⟩ : Reader σ) = len - off := rfl
    rw [hav] at hpl ha
    refine ⟨⟨.snoc h1 ⟨h2, ht, ?_⟩, ?_, ?_, h4, ?_, h6⟩, trivial, trivial, ?_,
      Or.inr ⟨ha, ?_, trivial, ?_, trivial⟩⟩
    · intro h0; exact ha (hpn.mp h0)
    · rw [fedBytes_append, srcData_append, ← h2]
      have : Reader.pending (⟨(p.process cd pd cap).1, buf, off + n, len, eof, flushed, err, src⟩
          : Reader σ) = pd.drop n := by
        rw [hpd]; simp only [Reader.pending, List.drop_drop]
      rw [this]
      simp [fedBytes, srcData]
    · show off + n ≤ len
      omega
    · exact snoc_eof (by simp) (by simp) h5
    · simp [produced]
    · have : len - off - (len - (off + n)) = n := by omega
      show Entry.fed pd n _ _ = Entry.fed pd (len - off - (len - (off + n))) _ _
      rw [this]
    · show len - (off + n) + n = len - off
      omega

theorem front_spec {s : Reader σ} {log : List Entry} (h : Inv s log) (ha : s.avail = 0)
    (hb : 0 < s.buf.length) :
    Inv s.front log ∧ Ready s.front ∧ s.front.avail = 0 ∧ s.front.buf.length = s.buf.length ∧
      s.front.eof = s.eof ∧ s.front.flushed = s.flushed ∧ s.front.cd = s.cd ∧ s.front.src = s.src := by
  have hpn := (pending_eq_nil h.off h.len).mpr ha
  obtain ⟨cd, buf, off, len, eof, flushed, err, src⟩ := s
  obtain ⟨h1, h2, h3, h4, h5, h6⟩ := h
  simp only at h3 h4 h5 h6 hb
  have ha' : len - off = 0 := ha
  rw [hpn, List.append_nil] at h2
  unfold Reader.front
  by_cases hc : off = buf.length
  · rw [if_pos hc]
    refine ⟨⟨h1, ?_, Nat.le_refl _, Nat.zero_le _, h5, h6⟩, fun _ => Or.inl hb, by simp [Reader.avail], by simp, by simp, by simp, by simp, by simp⟩
    simpa [Reader.pending] using h2
  · rw [if_neg hc]
    by_cases hd : off + 256 > buf.length ∧ len - off < off
    · simp only [hd, and_self, if_true]
      have hput : ((buf.drop off).take (len - off)) = [] := by rw [ha']; simp
      refine ⟨⟨h1, ?_, Nat.zero_le _, ?_, h5, h6⟩, ?_, ?_, ?_, trivial⟩
      · simp only [Reader.pending, ha']
        simpa using h2
      · rw [hput]
        show len - off ≤ (put buf 0 []).length
        rw [put_length (by simp)]; omega
      · intro _
        left
        rw [hput]
        show len - off < (put buf 0 []).length
        rw [put_length (by simp)]; omega
      · show len - off - 0 = 0
        omega
      · rw [hput]
        show (put buf 0 []).length = buf.length
        rw [put_length (by simp)]
    · have hd' : ¬ (off + 256 > buf.length ∧ len - off < off) := hd
      simp only [hd', if_false]
      refine ⟨⟨h1, ?_, h3, h4, h5, h6⟩, ?_, ha, trivial, trivial, trivial, trivial, trivial⟩
      · rw [hpn, List.append_nil]; exact h2
      · intro _
        left
        show len < buf.length
        omega

/-- The head of the loop. -/
structure Head (s : Reader σ) (needs : Bool) (log : List Entry) : Prop where
  inv : Inv s log
  ready : Ready s
  buf : 0 < s.buf.length
  needs : needs = true → s.avail = 0

/-- What a call of `read` leaves behind, and what it returns. -/
structure Done (s : Reader σ) (log log' : List Entry) (g : Got) : Prop where
  inv : Inv s log'
  ready : Ready s
  buf : 0 < s.buf.length
  ext : ∃ new, log' = log ++ new ∧ (∀ bs, g = .ok bs → produced new = bs)
  eof : g = .ok [] → s.avail = 0 ∧ s.eof = true

theorem loop_spec {p : Proc σ} (hp : p.Lawful) (cap : Nat) (fuel : Nat) {s : Reader σ} {needs : Bool}
    {log : List Entry} (h : Head s needs log) {s' : Reader σ} {log' : List Entry} {g : Got}
    (hl : s.loop p cap fuel needs log = some (s', log', g)) : Done s' log log' g := by
  induction fuel generalizing s needs log with
  | zero => simp [Reader.loop] at hl
  | succ fuel ih =>
    rw [Reader.loop] at hl
    by_cases hc : needs = true ∧ s.eof = true
    · rw [if_pos hc] at hl
      cases hl
      exact ⟨h.inv, h.ready, h.buf, ⟨[], by simp, fun bs hb => by cases hb; rfl⟩,
        fun _ => ⟨h.needs hc.1, hc.2⟩⟩
    · rw [if_neg hc] at hl
      simp only at hl
      obtain ⟨p1, p2, p3, p4, p5, p6, p7, p8⟩ := pull_spec h.inv h.ready
      obtain ⟨⟨s1, ev⟩, hpl⟩ : ∃ x, x = s.pull := ⟨_, rfl⟩
      rw [← hpl] at p1 p2 p3 p4 p5 p6 p7 p8 hl
      simp only at p1 p2 p3 p4 p5 p6 p7 p8 hl
      by_cases ha : ev = some .again
      · rw [if_pos ha] at hl
        obtain ⟨q1, q2, q3⟩ := p5 ha
        have hd := ih ⟨p1, q1, by rw [p3]; exact h.buf, fun hn => by rw [q2]; exact h.needs hn⟩ hl
        obtain ⟨new, e1, e2⟩ := hd.ext
        refine ⟨hd.inv, hd.ready, hd.buf, ⟨ev.toList ++ new, by rw [e1, List.append_assoc], ?_⟩, hd.eof⟩
        intro bs hb
        rw [produced_append, p8, e2 bs hb, List.nil_append]
      · rw [if_neg ha] at hl
        obtain ⟨c1, c2, c3, c4, c5⟩ := call_spec hp p1 (p6 ha) cap
        obtain ⟨⟨s2, e, out, r⟩, hcall⟩ : ∃ x, x = s1.call p cap := ⟨_, rfl⟩
        rw [← hcall] at c1 c2 c3 c4 c5 hl
        simp only at c1 c2 c3 c4 c5 hl
        have hb2 : 0 < s2.buf.length := by rw [c2, p3]; exact h.buf
        have hprod : produced (ev.toList ++ [e]) = out := by
          rw [produced_append, p8, c4, List.nil_append]
        by_cases he : s2.avail = 0 ∧ s2.err = true
        · rw [if_pos he] at hl
          cases hl
          refine ⟨⟨c1.orderly, c1.fed, c1.off, c1.len, c1.eof, fun h => by simp at h⟩,
            fun _ => Or.inr (c1.err he.2), hb2,
            ⟨ev.toList ++ [e], by simp, fun bs hb => by simp at hb⟩, fun h => by simp at h⟩
        · rw [if_neg he] at hl
          obtain ⟨s3, hs3⟩ : ∃ s3, s3 = if s2.avail = 0 then s2.front else s2 := ⟨_, rfl⟩
          obtain ⟨needs3, hn3⟩ : ∃ n : Bool, n = if s2.avail = 0 then true else
            stillNeeds ev needs := ⟨_, rfl⟩
          have f : Inv s3 (log ++ ev.toList ++ [e]) ∧ Ready s3 ∧ (s3.avail = 0 ↔ s2.avail = 0) ∧
              0 < s3.buf.length ∧ s3.eof = s2.eof ∧ s3.flushed = s2.flushed := by
            by_cases h0 : s2.avail = 0
            · rw [if_pos h0] at hs3
              obtain ⟨a, b, c, d, e, f, -, -⟩ := front_spec c1 h0 hb2
              subst hs3
              exact ⟨a, b, ⟨fun _ => h0, fun _ => c⟩, by rw [d]; exact hb2, e, f⟩
            · rw [if_neg h0] at hs3
              subst hs3
              exact ⟨c1, fun h => absurd h h0, Iff.rfl, hb2, rfl, rfl⟩
          obtain ⟨f1, f2, f3, f4, f5, f6⟩ := f
          have hhead : Head s3 needs3 (log ++ ev.toList ++ [e]) := by
            refine ⟨f1, f2, f4, ?_⟩
            intro hn
            rw [f3]
            by_cases h0 : s2.avail = 0
            · exact h0
            · rw [if_neg h0] at hn3
              rw [hn] at hn3
              rcases p7 with ⟨bs, rfl⟩ | hav
              · simp [stillNeeds] at hn3
              · have hneeds : needs = true := by
                  unfold stillNeeds at hn3
                  split at hn3
                  · simp at hn3
                  · exact hn3.symm
                have h1 := h.needs hneeds
                rw [h1] at hav
                rcases c5 with c5 | c5
                · exact c5.2.2.2.1
                · exact absurd hav c5.1
          rw [← hs3, ← hn3] at hl
          have hfin : Done s3 log (log ++ ev.toList ++ [e]) (.ok out) ∨ out = [] := by
            by_cases ho : out = []
            · exact Or.inr ho
            · left
              refine ⟨f1, f2, f4, ⟨ev.toList ++ [e], by simp, ?_⟩, ?_⟩
              · intro bs hb; cases hb; exact hprod
              · intro hb; simp only [Got.ok.injEq] at hb; exact absurd hb ho
          have hgo : (if r = .success ∧ s3.eof = true ∧ s2.avail = 0 ∧ s3.flushed = true then
              some (s3, log ++ ev.toList ++ [e], Got.ok out)
            else if out = [] then Reader.loop p cap fuel s3 needs3 (log ++ ev.toList ++ [e])
            else some (s3, log ++ ev.toList ++ [e], Got.ok out)) = some (s', log', g) →
              Done s' log log' g := by
            intro hl
            by_cases hs : r = .success ∧ s3.eof = true ∧ s2.avail = 0 ∧ s3.flushed = true
            · rw [if_pos hs] at hl
              cases hl
              refine ⟨f1, f2, f4, ⟨ev.toList ++ [e], by simp, ?_⟩, ?_⟩
              · intro bs hb; cases hb; exact hprod
              · intro _; exact ⟨f3.mpr hs.2.2.1, hs.2.1⟩
            · rw [if_neg hs] at hl
              by_cases ho : out = []
              · rw [if_pos ho] at hl
                have hd := ih hhead hl
                obtain ⟨new, e1, e2⟩ := hd.ext
                refine ⟨hd.inv, hd.ready, hd.buf, ⟨ev.toList ++ [e] ++ new, ?_, ?_⟩, hd.eof⟩
                · rw [e1]; simp
                · intro bs hb
                  rw [produced_append, hprod, ho, e2 bs hb, List.nil_append]
              · rw [if_neg ho] at hl
                cases hl
                exact hfin.resolve_right ho
          cases r with
          | failure =>
            cases hl
            exact ⟨f1, f2, f4, ⟨ev.toList ++ [e], by simp, fun bs hb => by simp at hb⟩,
              fun h => by simp at h⟩
          | success => exact hgo hl
          | needsInput => exact hgo hl
          | needsOutput => exact hgo hl

theorem head_new (cd : σ) {buf : List UInt8} (hb : 0 < buf.length) (nf : Bool) (src : List Ev) :
    Head (Reader.new cd buf nf src) false [] :=
  ⟨⟨.nil, by simp [fedBytes, srcData, Reader.pending, Reader.new], Nat.le_refl _, Nat.zero_le _,
      by simp [Reader.new, Over], by simp [Reader.new]⟩,
    fun _ => Or.inl hb, hb, by simp⟩

theorem Done.head {s : Reader σ} {log log' : List Entry} {g : Got} (h : Done s log log' g) :
    Head s false log' := ⟨h.inv, h.ready, h.buf, by simp⟩

theorem reads_spec {p : Proc σ} (hp : p.Lawful) (fuel : Nat) (caps : List Nat) {s : Reader σ}
    {log : List Entry} (h : Head s false log) {s' : Reader σ} {log' : List Entry} {gs : List Got}
    (hr : reads p fuel caps s log = some (s', log', gs)) :
    Head s' false log' ∧ ∃ new, log' = log ++ new ∧
      ((∀ g ∈ gs, ∃ bs, g = .ok bs) → produced new = gs.flatMap fun
        | .ok bs => bs
        | _ => []) := by
  induction caps generalizing s log gs with
  | nil =>
    simp only [reads, Option.some.injEq, Prod.mk.injEq] at hr
    obtain ⟨rfl, rfl, rfl⟩ := hr
    exact ⟨h, [], by simp, fun _ => rfl⟩
  | cons cap caps ih =>
    simp only [reads] at hr
    cases h1 : s.read p fuel cap log with
    | none => rw [h1] at hr; simp at hr
    | some x =>
      obtain ⟨s1, log1, g⟩ := x
      rw [h1] at hr
      simp only at hr
      have hd := loop_spec hp cap fuel h h1
      cases h2 : reads p fuel caps s1 log1 with
      | none => rw [h2] at hr; simp at hr
      | some y =>
        obtain ⟨s2, log2, gs2⟩ := y
        rw [h2] at hr
        simp only [Option.map_some, Option.some.injEq, Prod.mk.injEq] at hr
        obtain ⟨rfl, rfl, rfl⟩ := hr
        obtain ⟨hh, new2, e2, q2⟩ := ih hd.head h2
        obtain ⟨new1, e1, q1⟩ := hd.ext
        refine ⟨hh, new1 ++ new2, by rw [e2, e1, List.append_assoc], ?_⟩
        intro hall
        obtain ⟨bs, hb⟩ := hall g (by simp)
        rw [produced_append, q1 bs hb, q2 (fun g hg => hall g (by simp [hg])), hb]
        simp

/-- **C25, feeding and finalising.** For every lawful codec, every source, every buffer, and every
sequence of reads with any buffer sizes that return: the log is orderly.  That is, the codec is at each
time shown exactly the bytes read from the source and not yet taken, in order; it is closed only after
the source has reported its end (or an error) and after it has taken every byte of the source; the
source is not read beyond its end.  What is buffered is exactly what the codec has not taken. -/
theorem reader_orderly {p : Proc σ} (hp : p.Lawful) {cd : σ} {buf : List UInt8} (hb : 0 < buf.length)
    {nf : Bool} {src : List Ev} {fuel : Nat} {caps : List Nat} {s : Reader σ} {log : List Entry}
    {gs : List Got} (hr : reads p fuel caps (Reader.new cd buf nf src) [] = some (s, log, gs)) :
    Orderly log ∧ fedBytes log ++ s.pending = srcData log := by
  have := (reads_spec hp fuel caps (head_new cd hb nf src) hr).1
  exact ⟨this.inv.orderly, this.inv.fed⟩

/-- **C25, output.** As long as no read fails, the bytes returned are exactly the bytes the codec
produced, in order. -/
theorem reader_output {p : Proc σ} (hp : p.Lawful) {cd : σ} {buf : List UInt8} (hb : 0 < buf.length)
    {nf : Bool} {src : List Ev} {fuel : Nat} {caps : List Nat} {s : Reader σ} {log : List Entry}
    {gs : List Got} (hr : reads p fuel caps (Reader.new cd buf nf src) [] = some (s, log, gs))
    (hok : ∀ g ∈ gs, ∃ bs, g = .ok bs) :
    produced log = gs.flatMap fun
      | .ok bs => bs
      | _ => [] := by
  obtain ⟨-, new, e, h⟩ := reads_spec hp fuel caps (head_new cd hb nf src) hr
  rw [e, List.nil_append]
  exact h hok

theorem reads_append {p : Proc σ} {fuel : Nat} {caps : List Nat} {cap : Nat} {s s2 : Reader σ}
    {log log2 : List Entry} {gs2 : List Got}
    (hr : reads p fuel (caps ++ [cap]) s log = some (s2, log2, gs2)) :
    ∃ s1 log1 gs1 g, reads p fuel caps s log = some (s1, log1, gs1) ∧
      s1.read p fuel cap log1 = some (s2, log2, g) ∧ gs2 = gs1 ++ [g] := by
  induction caps generalizing s log gs2 with
  | nil =>
    simp only [List.nil_append, reads] at hr
    cases h1 : s.read p fuel cap log with
    | none => rw [h1] at hr; simp at hr
    | some x =>
      obtain ⟨s1, log1, g⟩ := x
      rw [h1] at hr
      simp only [Option.map_some, Option.some.injEq, Prod.mk.injEq] at hr
      obtain ⟨rfl, rfl, rfl⟩ := hr
      exact ⟨s, log, [], g, rfl, h1, rfl⟩
  | cons c caps ih =>
    simp only [List.cons_append, reads] at hr ⊢
    cases h1 : s.read p fuel c log with
    | none => rw [h1] at hr; simp at hr
    | some x =>
      obtain ⟨s1, log1, g⟩ := x
      rw [h1] at hr
      simp only at hr
      cases h2 : reads p fuel (caps ++ [cap]) s1 log1 with
      | none => rw [h2] at hr; simp at hr
      | some y =>
        obtain ⟨s3, log3, gs3⟩ := y
        rw [h2] at hr
        simp only [Option.map_some, Option.some.injEq, Prod.mk.injEq] at hr
        obtain ⟨rfl, rfl, rfl⟩ := hr
        obtain ⟨s4, log4, gs4, g4, e1, e2, e3⟩ := ih h2
        refine ⟨s4, log4, g :: gs4, g4, ?_, e2, by rw [e3]; rfl⟩
        simp only [e1]; rfl

/-- **C25, end of file, first part.** When a read reports the end of file, the source has reported its
end (or an error), and the codec has taken every byte of it. -/
theorem reader_eof_all_fed {p : Proc σ} (hp : p.Lawful) {cd : σ} {buf : List UInt8}
    (hb : 0 < buf.length) {nf : Bool} {src : List Ev} {fuel : Nat} {caps : List Nat} {cap : Nat}
    {s : Reader σ} {log : List Entry} {gs : List Got}
    (hr : reads p fuel (caps ++ [cap]) (Reader.new cd buf nf src) [] = some (s, log, gs ++ [.ok []])) :
    Over log ∧ fedBytes log = srcData log := by
  obtain ⟨s1, log1, gs1, g, h1, h2, h3⟩ := reads_append hr
  have hg : g = .ok [] := by
    have := List.append_inj_right' h3 rfl
    simpa using this.symm
  subst hg
  have hh := (reads_spec hp fuel caps (head_new cd hb nf src) h1).1
  have hd := loop_spec hp cap fuel hh h2
  obtain ⟨ha, he⟩ := hd.eof rfl
  refine ⟨hd.inv.eof.mp he, ?_⟩
  have := hd.inv.fed
  rwa [(pending_eq_nil hd.inv.off hd.inv.len).mpr ha, List.append_nil] at this

theorem pull_err (s : Reader σ) :
    s.pull.1.err = (s.err || s.pull.2 == some .failed) := by
  unfold Reader.pull
  split
  · split <;> simp
  · simp

theorem call_err (p : Proc σ) (s : Reader σ) (cap : Nat) :
    (s.call p cap).1.err = s.err ∧ (s.call p cap).2.1 ≠ .failed := by
  unfold Reader.call
  split <;> simp

theorem front_err (s : Reader σ) : s.front.err = s.err := by
  unfold Reader.front
  simp only
  split
  · rfl
  · split <;> rfl

/-- What a call of `read` does with an error of the source: it keeps it, or it reports it; and as long
as one is kept it does not report the end. -/
theorem loop_err {p : Proc σ} (hp : p.Lawful) (cap : Nat) (fuel : Nat) {s : Reader σ} {needs : Bool}
    {log : List Entry} (h : Head s needs log) (hn : needs = true → s.err = false) {R : Prop}
    (hf : Entry.failed ∈ log → s.err = true ∨ R) {s' : Reader σ} {log' : List Entry} {g : Got}
    (hl : s.loop p cap fuel needs log = some (s', log', g)) :
    (Entry.failed ∈ log' → s'.err = true ∨ R ∨ g = .ioErr) ∧ (g = .ok [] → s'.err = false) := by
  induction fuel generalizing s needs log with
  | zero => simp [Reader.loop] at hl
  | succ fuel ih =>
    rw [Reader.loop] at hl
    by_cases hc : needs = true ∧ s.eof = true
    · rw [if_pos hc] at hl
      cases hl
      exact ⟨fun h => (hf h).imp_right Or.inl, fun _ => hn hc.1⟩
    · rw [if_neg hc] at hl
      simp only at hl
      obtain ⟨p1, p2, p3, p4, p5, p6, p7, p8⟩ := pull_spec h.inv h.ready
      have p9 := pull_err s
      obtain ⟨⟨s1, ev⟩, hpl⟩ : ∃ x, x = s.pull := ⟨_, rfl⟩
      rw [← hpl] at p1 p2 p3 p4 p5 p6 p7 p8 p9 hl
      simp only at p1 p2 p3 p4 p5 p6 p7 p8 p9 hl
      have hf1 : Entry.failed ∈ log ++ ev.toList → s1.err = true ∨ R := by
        intro hm
        rcases List.mem_append.mp hm with hm | hm
        · rcases hf hm with h | h
          · left; rw [p9, h]; rfl
          · exact Or.inr h
        · left
          have : ev = some .failed := by
            cases ev with
            | none => simp at hm
            | some e => simp at hm; rw [← hm]
          rw [p9, this]; simp
      by_cases ha : ev = some .again
      · rw [if_pos ha] at hl
        obtain ⟨q1, q2, q3⟩ := p5 ha
        refine ih ⟨p1, q1, by rw [p3]; exact h.buf, fun hn => by rw [q2]; exact h.needs hn⟩ ?_ hf1 hl
        intro hx
        rw [p9, hn hx, ha]; rfl
      · rw [if_neg ha] at hl
        obtain ⟨c1, c2, c3, c4, c5⟩ := call_spec hp p1 (p6 ha) cap
        obtain ⟨c6, c7⟩ := call_err p s1 cap
        obtain ⟨⟨s2, e, out, r⟩, hcall⟩ : ∃ x, x = s1.call p cap := ⟨_, rfl⟩
        rw [← hcall] at c1 c2 c3 c4 c5 c6 c7 hl
        simp only at c1 c2 c3 c4 c5 c6 c7 hl
        have hb2 : 0 < s2.buf.length := by rw [c2, p3]; exact h.buf
        have hf2 : Entry.failed ∈ log ++ ev.toList ++ [e] → s2.err = true ∨ R := by
          intro hm
          rcases List.mem_append.mp hm with hm | hm
          · rw [c6]; exact hf1 hm
          · simp at hm; exact absurd hm.symm c7
        by_cases he : s2.avail = 0 ∧ s2.err = true
        · rw [if_pos he] at hl
          cases hl
          exact ⟨fun _ => Or.inr (Or.inr rfl), by simp⟩
        · rw [if_neg he] at hl
          obtain ⟨s3, hs3⟩ : ∃ s3, s3 = if s2.avail = 0 then s2.front else s2 := ⟨_, rfl⟩
          obtain ⟨needs3, hn3⟩ : ∃ n : Bool, n = if s2.avail = 0 then true else
            stillNeeds ev needs := ⟨_, rfl⟩
          have f : Inv s3 (log ++ ev.toList ++ [e]) ∧ Ready s3 ∧ (s3.avail = 0 ↔ s2.avail = 0) ∧
              0 < s3.buf.length ∧ s3.err = s2.err := by
            by_cases h0 : s2.avail = 0
            · rw [if_pos h0] at hs3
              obtain ⟨a, b, c, d, e, f, -, -⟩ := front_spec c1 h0 hb2
              subst hs3
              exact ⟨a, b, ⟨fun _ => h0, fun _ => c⟩, by rw [d]; exact hb2, front_err s2⟩
            · rw [if_neg h0] at hs3
              subst hs3
              exact ⟨c1, fun h => absurd h h0, Iff.rfl, hb2, rfl⟩
          obtain ⟨f1, f2, f3, f4, f5⟩ := f
          have hav : needs3 = true → s2.avail = 0 := by
            intro hx
            by_cases h0 : s2.avail = 0
            · exact h0
            · rw [if_neg h0] at hn3
              rw [hx] at hn3
              rcases p7 with ⟨bs, rfl⟩ | hav
              · simp [stillNeeds] at hn3
              · have hneeds : needs = true := by
                  unfold stillNeeds at hn3
                  split at hn3
                  · simp at hn3
                  · exact hn3.symm
                have h1 := h.needs hneeds
                rw [h1] at hav
                rcases c5 with c5 | c5
                · exact c5.2.2.2.1
                · exact absurd hav c5.1
          have herr : s2.avail = 0 → s3.err = false := by
            intro h0
            rw [f5]
            cases hx : s2.err with
            | false => rfl
            | true => exact absurd ⟨h0, hx⟩ he
          rw [← f5] at hf2
          rw [← hs3, ← hn3] at hl
          have hgo : (if r = .success ∧ s3.eof = true ∧ s2.avail = 0 ∧ s3.flushed = true then
              some (s3, log ++ ev.toList ++ [e], Got.ok out)
            else if out = [] then Reader.loop p cap fuel s3 needs3 (log ++ ev.toList ++ [e])
            else some (s3, log ++ ev.toList ++ [e], Got.ok out)) = some (s', log', g) →
              (Entry.failed ∈ log' → s'.err = true ∨ R ∨ g = .ioErr) ∧
                (g = .ok [] → s'.err = false) := by
            intro hl
            by_cases hs : r = .success ∧ s3.eof = true ∧ s2.avail = 0 ∧ s3.flushed = true
            · rw [if_pos hs] at hl
              cases hl
              exact ⟨fun h => (hf2 h).imp_right Or.inl, fun _ => herr hs.2.2.1⟩
            · rw [if_neg hs] at hl
              by_cases ho : out = []
              · rw [if_pos ho] at hl
                exact ih ⟨f1, f2, f4, fun hx => f3.mpr (hav hx)⟩ (fun hx => herr (hav hx)) hf2 hl
              · rw [if_neg ho] at hl
                cases hl
                exact ⟨fun h => (hf2 h).imp_right Or.inl, fun hb => by
                  simp only [Got.ok.injEq] at hb; exact absurd hb ho⟩
          cases r with
          | failure =>
            cases hl
            exact ⟨fun h => (hf2 h).imp_right Or.inl, by simp⟩
          | success => exact hgo hl
          | needsInput => exact hgo hl
          | needsOutput => exact hgo hl

/-- **C25, errors of the source.** Every error of the source is reported before the end of file is: if
a read returns the end of file and the source has failed, then an earlier read has returned the
error. -/
theorem source_error_reported {p : Proc σ} (hp : p.Lawful) {cd : σ} {buf : List UInt8}
    (hb : 0 < buf.length) {nf : Bool} {src : List Ev} {fuel : Nat} {caps : List Nat} {cap : Nat}
    {s : Reader σ} {log : List Entry} {gs : List Got}
    (hr : reads p fuel (caps ++ [cap]) (Reader.new cd buf nf src) [] = some (s, log, gs ++ [.ok []]))
    (hfail : Entry.failed ∈ log) : Got.ioErr ∈ gs := by
  have key : ∀ (caps : List Nat) (s : Reader σ) (log : List Entry) (R : Prop), Head s false log →
      (Entry.failed ∈ log → s.err = true ∨ R) → ∀ s' log' gs,
      reads p fuel caps s log = some (s', log', gs) →
      Entry.failed ∈ log' → s'.err = true ∨ R ∨ Got.ioErr ∈ gs := by
    intro caps
    induction caps with
    | nil =>
      intro s log R _ hf s' log' gs hr hm
      simp only [reads, Option.some.injEq, Prod.mk.injEq] at hr
      obtain ⟨rfl, rfl, rfl⟩ := hr
      exact (hf hm).imp_right Or.inl
    | cons c caps ih =>
      intro s log R hh hf s' log' gs hr hm
      simp only [reads] at hr
      cases h1 : s.read p fuel c log with
      | none => rw [h1] at hr; simp at hr
      | some x =>
        obtain ⟨s1, log1, g⟩ := x
        rw [h1] at hr
        simp only [Option.map_eq_some_iff] at hr
        obtain ⟨⟨s2, log2, gs2⟩, h2, he⟩ := hr
        cases he
        have hd := loop_spec hp c fuel hh h1
        have hle := (loop_err hp c fuel hh (by simp) hf h1).1
        rcases ih s1 log1 (R ∨ g = .ioErr) hd.head hle _ _ _ h2 hm with h | (h | h) | h
        · exact Or.inl h
        · exact Or.inr (Or.inl h)
        · exact Or.inr (Or.inr (by simp [h]))
        · exact Or.inr (Or.inr (by simp [h]))
  obtain ⟨s1, log1, gs1, g, h1, h2, h3⟩ := reads_append hr
  have h3' := List.append_inj' h3 rfl
  obtain ⟨rfl, hg⟩ := h3'
  simp only [List.cons.injEq, and_true] at hg
  subst hg
  have hh := (reads_spec hp fuel caps (head_new cd hb nf src) h1).1
  have hf := key caps _ [] False (head_new cd hb nf src) (by simp) _ _ _ h1
  have hl := loop_err hp cap fuel hh (by simp) (R := Got.ioErr ∈ gs)
    (fun hm => (hf hm).imp_right (fun h => h.resolve_left id)) h2
  rcases hl.1 hfail with h | h | h
  · rw [hl.2 rfl] at h; cases h
  · exact h
  · cases h

/-- A codec whose `close`, given output space, only asks for more after writing something, and never
asks for input. -/
def Prompt (p : Proc σ) : Prop :=
  ∀ c n, 0 < n → (p.close c n).2.2 ≠ .needsInput ∧
    ((p.close c n).2.2 = .needsOutput → (p.close c n).2.1 ≠ [])

/-- A codec that always takes all its input. -/
def Greedy (p : Proc σ) : Prop := ∀ c i n, 0 < n → (p.process c i n).2.1 = i.length

/-- The codec has been closed successfully. -/
def Finished (log : List Entry) : Prop := ∃ out, Entry.closed out .success ∈ log

theorem front_eof (s : Reader σ) : s.front.eof = s.eof := by
  unfold Reader.front
  simp only
  split
  · rfl
  · split <;> rfl

theorem front_flushed (s : Reader σ) : s.front.flushed = s.flushed := by
  unfold Reader.front
  simp only
  split
  · rfl
  · split <;> rfl

/-- A read that starts after everything was fed to the codec and the source has ended: if it reports
the end of file, the codec is finished. -/
theorem read_at_end {p : Proc σ} (hpr : Prompt p) {cap : Nat} (hc : 0 < cap) {fuel : Nat}
    {s : Reader σ} {log : List Entry} (ha : s.avail = 0) (he : s.eof = true) {s' : Reader σ}
    {log' : List Entry} (hr : s.read p fuel cap log = some (s', log', .ok [])) : Finished log' := by
  cases fuel with
  | zero => simp [Reader.read, Reader.loop] at hr
  | succ fuel =>
    have hpull : s.pull = (s, none) := by simp [Reader.pull, he]
    rw [Reader.read, Reader.loop, if_neg (by simp), hpull] at hr
    simp only [reduceCtorEq, if_false, Option.toList_none, List.append_nil] at hr
    obtain ⟨h1, h2⟩ := hpr s.cd cap hc
    have hcall : s.call p cap = ({ s with cd := (p.close s.cd cap).1, flushed := true },
        .closed (p.close s.cd cap).2.1 (p.close s.cd cap).2.2, (p.close s.cd cap).2.1,
        (p.close s.cd cap).2.2) := by
      unfold Reader.call
      rw [if_pos ha]
    obtain ⟨⟨c2, out, r⟩, hx⟩ : ∃ x, x = p.close s.cd cap := ⟨_, rfl⟩
    rw [hcall, ← hx] at hr
    rw [← hx] at h1 h2
    simp only at hr h1 h2
    have ha' : Reader.avail ({ s with cd := c2, flushed := true } : Reader σ) = 0 := ha
    by_cases herr : s.err = true
    · rw [if_pos ⟨ha', herr⟩] at hr; simp at hr
    · rw [if_neg (by simp [herr]), if_pos ha'] at hr
      have hfe : (Reader.front ({ s with cd := c2, flushed := true } : Reader σ)).eof = true := by
        rw [front_eof]; exact he
      have hff : (Reader.front ({ s with cd := c2, flushed := true } : Reader σ)).flushed = true := by
        rw [front_flushed]
      cases r with
      | failure => simp at hr
      | needsInput => exact absurd rfl h1
      | needsOutput =>
        have ho := h2 rfl
        simp only [reduceCtorEq, false_and, if_false] at hr
        rw [if_neg ho] at hr
        simp only [Option.some.injEq, Prod.mk.injEq, Got.ok.injEq] at hr
        exact absurd hr.2.2 ho
      | success =>
        simp only [hfe, ha', hff, and_self, if_true] at hr
        simp only [Option.some.injEq, Prod.mk.injEq, Got.ok.injEq] at hr
        rw [← hr.2.1]
        exact ⟨out, by simp⟩

/-- **C25, end of file, for callers that insist.** If two reads in a row report the end of file, the
second with room for at least one byte, the codec is finished.  (For every lawful codec whose `close`
does not stall.) -/
theorem second_eof_is_real {p : Proc σ} (hp : p.Lawful) (hpr : Prompt p) {cd : σ} {buf : List UInt8}
    (hb : 0 < buf.length) {nf : Bool} {src : List Ev} {fuel : Nat} {caps : List Nat} {cap cap' : Nat}
    (hc : 0 < cap') {s : Reader σ} {log : List Entry} {gs : List Got}
    (hr : reads p fuel (caps ++ [cap] ++ [cap']) (Reader.new cd buf nf src) []
      = some (s, log, gs ++ [.ok []] ++ [.ok []])) : Finished log := by
  obtain ⟨s1, log1, gs1, g, h1, h2, h3⟩ := reads_append hr
  have hg := List.append_inj' h3 rfl
  have hg2 : g = .ok [] := by simpa using hg.2.symm
  subst hg2
  rw [← hg.1] at h1
  obtain ⟨s2, log2, gs2, g2, k1, k2, k3⟩ := reads_append h1
  have hg3 : g2 = .ok [] := by simpa using (List.append_inj_right' k3 rfl).symm
  subst hg3
  have hh := (reads_spec hp fuel caps (head_new cd hb nf src) k1).1
  obtain ⟨ha, he⟩ := (loop_spec hp cap fuel hh k2).eof rfl
  exact read_at_end hpr hc ha he h2

theorem greedy_loop {p : Proc σ} (hp : p.Lawful) (hpr : Prompt p) (hg : Greedy p) {cap : Nat}
    (hc : 0 < cap) (fuel : Nat) {s : Reader σ} {needs : Bool} {log : List Entry}
    (h : Head s needs log) (ha : s.avail = 0) (hn : ¬ (needs = true ∧ s.eof = true))
    {s' : Reader σ} {log' : List Entry} {g : Got}
    (hl : s.loop p cap fuel needs log = some (s', log', g)) :
    s'.avail = 0 ∧ (g = .ok [] → Finished log') := by
  induction fuel generalizing s needs log with
  | zero => simp [Reader.loop] at hl
  | succ fuel ih =>
    rw [Reader.loop, if_neg hn] at hl
    simp only at hl
    obtain ⟨p1, p2, p3, p4, p5, p6, p7, p8⟩ := pull_spec h.inv h.ready
    have pgot : (∃ bs, s.pull.2 = some (.got bs)) → s.pull.1.eof = false := by
      rintro ⟨bs, hbs⟩
      unfold Reader.pull at hbs ⊢
      by_cases hcond : s.len < s.buf.length ∧ s.eof = false
      · rw [if_pos hcond] at hbs ⊢
        split at hbs <;> simp_all
      · rw [if_neg hcond] at hbs
        simp at hbs
    obtain ⟨⟨s1, ev⟩, hpl⟩ : ∃ x, x = s.pull := ⟨_, rfl⟩
    rw [← hpl] at p1 p2 p3 p4 p5 p6 p7 p8 pgot hl
    simp only at p1 p2 p3 p4 p5 p6 p7 p8 pgot hl
    by_cases hag : ev = some .again
    · rw [if_pos hag] at hl
      obtain ⟨q1, q2, q3⟩ := p5 hag
      exact ih ⟨p1, q1, by rw [p3]; exact h.buf, fun hn => by rw [q2]; exact h.needs hn⟩
        (by rw [q2]; exact ha) (by rw [q3]; exact hn) hl
    · rw [if_neg hag] at hl
      obtain ⟨c1, c2, c3, c4, c5⟩ := call_spec hp p1 (p6 hag) cap
      obtain ⟨⟨s2, e, out, r⟩, hcall⟩ : ∃ x, x = s1.call p cap := ⟨_, rfl⟩
      rw [← hcall] at c1 c2 c3 c4 c5 hl
      simp only at c1 c2 c3 c4 c5 hl
      have hb2 : 0 < s2.buf.length := by rw [c2, p3]; exact h.buf
      have ha2 : s2.avail = 0 := by
        rcases c5 with c5 | c5
        · exact c5.2.2.2.1
        · have := c5.2.2.2.1
          rw [hg _ _ _ hc, pending_length p1.off p1.len] at this
          omega
      by_cases herr : s2.avail = 0 ∧ s2.err = true
      · rw [if_pos herr] at hl
        cases hl
        exact ⟨ha2, by simp⟩
      · rw [if_neg herr, if_pos ha2, if_pos ha2] at hl
        obtain ⟨f1, f2, f3, f4, f5, f6, -, -⟩ := front_spec c1 ha2 hb2
        rcases c5 with c5 | c5
        · obtain ⟨d1, d2, d3, d4, d5⟩ := c5
          have heof : s2.front.eof = true := by rw [f5, c3]; exact p6 hag d1
          have hfl : s2.front.flushed = true := by rw [f6]; exact d3
          have hpr' := hpr s1.cd cap hc
          rw [← d5] at hpr'
          simp only at hpr'
          cases r with
          | failure => cases hl; exact ⟨f3, by simp⟩
          | needsInput => exact absurd rfl hpr'.1
          | needsOutput =>
            have ho := hpr'.2 rfl
            simp only [reduceCtorEq, false_and, if_false] at hl
            rw [if_neg ho] at hl
            cases hl
            exact ⟨f3, fun h => by simp only [Got.ok.injEq] at h; exact absurd h ho⟩
          | success =>
            simp only [heof, ha2, hfl, and_self, if_true] at hl
            cases hl
            exact ⟨f3, fun _ => ⟨out, by rw [d2]; simp⟩⟩
        · have hgot : ∃ bs, ev = some (.got bs) := by
            rcases p7 with h | h
            · exact h
            · exact absurd (by rw [h, ha]) c5.1
          have heof : s2.front.eof = false := by rw [f5, c3]; exact pgot hgot
          have hcont : (if r = .success ∧ s2.front.eof = true ∧ s2.avail = 0 ∧ s2.front.flushed = true
              then some (s2.front, log ++ ev.toList ++ [e], Got.ok out)
              else if out = [] then Reader.loop p cap fuel s2.front true (log ++ ev.toList ++ [e])
              else some (s2.front, log ++ ev.toList ++ [e], Got.ok out)) = some (s', log', g) →
              s'.avail = 0 ∧ (g = .ok [] → Finished log') := by
            intro hl
            rw [if_neg (by simp [heof])] at hl
            by_cases ho : out = []
            · rw [if_pos ho] at hl
              exact ih ⟨f1, f2, by rw [f4]; exact hb2, fun _ => f3⟩ f3 (by simp [heof]) hl
            · rw [if_neg ho] at hl
              cases hl
              exact ⟨f3, fun h => by simp only [Got.ok.injEq] at h; exact absurd h ho⟩
          cases r with
          | failure => cases hl; exact ⟨f3, by simp⟩
          | success => exact hcont hl
          | needsInput => exact hcont hl
          | needsOutput => exact hcont hl

theorem greedy_reads {p : Proc σ} (hp : p.Lawful) (hpr : Prompt p) (hg : Greedy p) (fuel : Nat)
    (caps : List Nat) (hc : ∀ c ∈ caps, 0 < c) {s : Reader σ} {log : List Entry}
    (h : Head s false log) (ha : s.avail = 0) {s' : Reader σ} {log' : List Entry} {gs : List Got}
    (hr : reads p fuel caps s log = some (s', log', gs)) : Head s' false log' ∧ s'.avail = 0 := by
  induction caps generalizing s log gs with
  | nil =>
    simp only [reads, Option.some.injEq, Prod.mk.injEq] at hr
    obtain ⟨rfl, rfl, rfl⟩ := hr
    exact ⟨h, ha⟩
  | cons cap caps ih =>
    simp only [reads] at hr
    cases h1 : s.read p fuel cap log with
    | none => rw [h1] at hr; simp at hr
    | some x =>
      obtain ⟨s1, log1, g⟩ := x
      rw [h1] at hr
      simp only at hr
      have hd := loop_spec hp cap fuel h h1
      have hgl := greedy_loop hp hpr hg (hc cap (by simp)) fuel h ha (by simp) h1
      cases h2 : reads p fuel caps s1 log1 with
      | none => rw [h2] at hr; simp at hr
      | some y =>
        obtain ⟨s2, log2, gs2⟩ := y
        rw [h2] at hr
        simp only [Option.map_some, Option.some.injEq, Prod.mk.injEq] at hr
        obtain ⟨rfl, rfl, rfl⟩ := hr
        exact ih (fun c hc' => hc c (by simp [hc'])) hd.head hgl.1 h2

/-- **C25, end of file, the part that holds.** With a codec that takes all the input it is shown (and
whose `close` does not stall), a read with room for at least one byte reports the end of file only
after the codec has finished.  Missing: codecs that leave input behind when their output is full, for
which it is false, see `premature_eof`. -/
theorem reader_eof_partial {p : Proc σ} (hp : p.Lawful) (hpr : Prompt p) (hg : Greedy p) {cd : σ}
    {buf : List UInt8} (hb : 0 < buf.length) {nf : Bool} {src : List Ev} {fuel : Nat} {caps : List Nat}
    {cap : Nat} (hc : ∀ c ∈ caps ++ [cap], 0 < c) {s : Reader σ} {log : List Entry} {gs : List Got}
    (hr : reads p fuel (caps ++ [cap]) (Reader.new cd buf nf src) [] = some (s, log, gs ++ [.ok []])) :
    Finished log := by
  obtain ⟨s1, log1, gs1, g, h1, h2, h3⟩ := reads_append hr
  have hg' : g = .ok [] := by simpa using (List.append_inj_right' h3 rfl).symm
  subst hg'
  obtain ⟨hh, ha⟩ := greedy_reads hp hpr hg fuel caps (fun c h => hc c (by simp [h]))
    (head_new cd hb nf src) rfl h1
  exact (greedy_loop hp hpr hg (hc cap (by simp)) fuel hh ha (by simp) h2).2 rfl

/-! ### What does not hold -/

/-- A small decoder for the counterexamples.  The stream is a sequence of bytes: 1 stands for nothing,
255 ends the stream, every other byte stands for itself.  Its state is whether the end has been seen.
`close` fails if the end has not been seen. -/
def toyStep : Bool → List UInt8 → Nat → Bool × Nat × List UInt8 × Res
  | true, _, _ => (true, 0, [], .success)
  | false, [], _ => (false, 0, [], .needsInput)
  | false, _ :: _, 0 => (false, 0, [], .needsOutput)
  | false, b :: bs, n + 1 =>
    if b = 255 then (true, 1, [], .success)
    else if b = 1 then
      let r := toyStep false bs (n + 1)
      (r.1, r.2.1 + 1, r.2.2)
    else
      let r := toyStep false bs n
      (r.1, r.2.1 + 1, b :: r.2.2.1, r.2.2.2)

/-- The toy decoder. -/
def toy : Proc Bool :=
  ⟨toyStep, fun d _ => (d, [], if d then .success else .failure)⟩

theorem toyStep_lawful (d : Bool) (i : List UInt8) (n : Nat) :
    (toyStep d i n).2.1 ≤ i.length ∧ (toyStep d i n).2.2.1.length ≤ n := by
  induction i generalizing d n with
  | nil => cases d <;> simp [toyStep]
  | cons b bs ih =>
    cases d with
    | true => simp [toyStep]
    | false =>
      cases n with
      | zero => simp [toyStep]
      | succ n =>
        unfold toyStep
        by_cases h1 : b = 255
        · rw [if_pos h1]; simp
        · rw [if_neg h1]
          by_cases h2 : b = 1
          · rw [if_pos h2]
            have := ih false (n + 1)
            simp only [List.length_cons]
            omega
          · rw [if_neg h2]
            have := ih false n
            simp only [List.length_cons]
            omega

theorem toy_lawful : toy.Lawful :=
  ⟨fun c i n => (toyStep_lawful c i n).1, fun c i n => (toyStep_lawful c i n).2,
    fun _ _ => Nat.zero_le _⟩

theorem toy_prompt : Prompt toy := by
  intro c n _
  cases c <;> simp [toy]

/-- **C25 fails.** A truncated stream: the source has the two bytes 7, 1 and then ends; the stream has
no end.  The caller reads one byte at a time.  The first read gives the byte 7; the second reports a
clean end of file, without closing the codec.  Closing it would have reported the truncation: a third
read does. -/
theorem premature_eof :
    ∃ s log, reads toy 10 [1, 1] (Reader.new false [0, 0, 0] true [.data [7, 1]]) []
        = some (s, log, [.ok [7], .ok []]) ∧
      (∀ out r, Entry.closed out r ∉ log) ∧
      ∃ s' log', s.read toy 10 1 log = some (s', log', .codecErr) := by
  refine ⟨⟨false, [7, 1, 0], 0, 0, true, false, false, []⟩,
    [.got [7, 1], .fed [7, 1] 1 [7] .needsOutput, .ended, .fed [1] 1 [] .needsInput], ?_, ?_, ?_⟩
  · decide +kernel
  · intro out r h
    simp at h
  · refine ⟨⟨false, [7, 1, 0], 0, 0, true, true, false, []⟩,
      [.got [7, 1], .fed [7, 1] 1 [7] .needsOutput, .ended, .fed [1] 1 [] .needsInput,
        .closed [] .failure], ?_⟩
    decide +kernel

/-- The decoder that copies its input and, when closed, writes the byte 9 once. -/
def tail : Proc Bool :=
  ⟨fun c i n => (c, min n i.length, i.take n, .needsInput),
    fun c n => if c || n == 0 then (c, [], .success) else (true, [9], .success)⟩

theorem tail_lawful : tail.Lawful :=
  ⟨fun c i n => Nat.min_le_right _ _, fun c i n => by simp [tail]; omega,
    fun c n => by
      cases c with
      | true => simp [tail]
      | false => cases n <;> simp [tail]⟩

/-- After an error of the source the codec is closed and what it wrote is lost: the read returns the
error of the source, and a caller that carries on gets the end of file, with one byte missing. -/
theorem error_loses_output :
    ∃ s log, reads tail 10 [4, 4, 4] (Reader.new false [0, 0, 0] true [.data [7], .fail, .data [8]]) []
        = some (s, log, [.ok [7], .ioErr, .ok []]) ∧
      produced log = [7, 9] := by
  refine ⟨⟨true, [7, 0, 0], 0, 0, true, true, false, [.data [8]]⟩,
    [.got [7], .fed [7] 1 [7] .needsInput, .failed, .closed [9] .success, .closed [] .success],
    ?_, ?_⟩
  · decide +kernel
  · decide +kernel

/-- A decoder that asks for output space when given none. -/
theorem toy_stuck (fuel : Nat) (log : List Entry) :
    Reader.loop toy 0 fuel ⟨false, [7], 0, 1, false, false, false, []⟩ false log = none := by
  induction fuel generalizing log with
  | zero => rfl
  | succ fuel ih =>
    have : Reader.loop toy 0 (fuel + 1) ⟨false, [7], 0, 1, false, false, false, []⟩ false log
        = Reader.loop toy 0 fuel ⟨false, [7], 0, 1, false, false, false, []⟩ false
            (log ++ [.fed [7] 0 [] .needsOutput]) := by
      rw [Reader.loop]
      rw [if_neg (by simp)]
      simp only [Reader.pull, List.length_cons, List.length_nil, Nat.reduceAdd, Nat.lt_irrefl, false_and,
        if_false, Option.toList_none, List.append_nil, reduceCtorEq]
      rfl
    rw [this, ih]

/-- **C25 fails, part two.** A read with room for no bytes does not return, in a state that a normal
history reaches: one byte is buffered that the codec can only turn into output. -/
theorem read_empty_never_returns :
    ∃ s log, reads toy 10 [1] (Reader.new false [0] true [.data [6, 7]]) []
        = some (s, log, [.ok [6]]) ∧
      ∀ fuel, reads toy fuel [1, 0] (Reader.new false [0] true [.data [6, 7]]) [] = none := by
  refine ⟨⟨false, [6], 0, 0, false, false, false, [.data [7]]⟩,
    [.got [6], .fed [6] 1 [6] .needsInput], ?_, ?_⟩
  · decide +kernel
  · intro fuel
    cases fuel with
    | zero => rfl
    | succ fuel =>
      have h1 : Reader.read toy (fuel + 1) 1 (Reader.new false [0] true [.data [6, 7]]) []
          = some (⟨false, [6], 0, 0, false, false, false, [.data [7]]⟩,
              [.got [6], .fed [6] 1 [6] .needsInput], .ok [6]) := rfl
      have h2 : Reader.read toy (fuel + 1) 0 ⟨false, [6], 0, 0, false, false, false, [.data [7]]⟩
            [.got [6], .fed [6] 1 [6] .needsInput]
          = Reader.loop toy 0 fuel ⟨false, [7], 0, 1, false, false, false, []⟩ false
              [.got [6], .fed [6] 1 [6] .needsInput, .got [7], .fed [7] 0 [] .needsOutput] := rfl
      simp only [reads, h1, h2, toy_stuck, Option.map_none]

/-! ### Every read returns -/

/-- What is left of the source. -/
def srcSize : List Ev → Nat
  | [] => 0
  | .data bs :: t => bs.length + 1 + srcSize t
  | _ :: t => 1 + srcSize t

/-- A codec that, given input and output space, does something. -/
def Progress (p : Proc σ) : Prop :=
  ∀ c i n, i ≠ [] → 0 < n → 0 < (p.process c i n).2.1 ∨ (p.process c i n).2.2.1 ≠ [] ∨
    (p.process c i n).2.2.2 = .failure

/-- A bound for the number of rounds of a read. -/
def rounds (s : Reader σ) : Nat := 2 * srcSize s.src + s.avail + (if s.eof then 0 else 1)

theorem pull_rounds (s : Reader σ) :
    rounds s.pull.1 ≤ rounds s ∧ (s.pull.2 ≠ none → rounds s.pull.1 < rounds s) := by
  unfold Reader.pull
  by_cases hc : s.len < s.buf.length ∧ s.eof = false
  · rw [if_pos hc]
    have key : ∀ t : Reader σ, rounds t < rounds s →
        rounds t ≤ rounds s ∧ (True → rounds t < rounds s) := fun t h => ⟨Nat.le_of_lt h, fun _ => h⟩
    split
    · simp [rounds, Reader.avail, hc.2]
    · next t hs =>
      simp only [rounds, Reader.avail, hc.2, hs, srcSize]
      simp; omega
    · next b bs t hs =>
      have hk : 0 < min (s.buf.length - s.len) (b :: bs).length := by
        simp only [List.length_cons]; omega
      obtain ⟨k, hk2⟩ : ∃ k, k = min (s.buf.length - s.len) (b :: bs).length := ⟨_, rfl⟩
      rw [← hk2] at hk
      have hkl : k ≤ (b :: bs).length := by omega
      simp only [rounds, Reader.avail, hc.2, hs, ← hk2]
      by_cases hlt : k < (b :: bs).length
      · rw [if_pos hlt]
        simp only [srcSize, List.length_drop]
        simp; simp only [List.length_cons] at hlt hkl; omega
      · rw [if_neg hlt]
        simp only [srcSize]
        simp; simp only [List.length_cons] at hlt hkl; omega
    · next t hs =>
      simp only [rounds, Reader.avail, hc.2, hs, srcSize]
      simp; omega
    · next t hs =>
      simp only [rounds, Reader.avail, hc.2, hs, srcSize]
      simp; omega
  · rw [if_neg hc]
    simp

theorem call_src (p : Proc σ) (s : Reader σ) (cap : Nat) : (s.call p cap).1.src = s.src := by
  unfold Reader.call
  simp only
  split <;> rfl

theorem loop_returns {p : Proc σ} (hp : p.Lawful) (hpg : Progress p) {cap : Nat} (hc : 0 < cap)
    (fuel : Nat) {s : Reader σ} {needs : Bool} {log : List Entry} (h : Head s needs log)
    (hf : (if needs = true ∧ s.eof = true then 1 else rounds s + 2) ≤ fuel) :
    ∃ x, s.loop p cap fuel needs log = some x := by
  induction fuel generalizing s needs log with
  | zero => split at hf <;> omega
  | succ fuel ih =>
    rw [Reader.loop]
    by_cases hn : needs = true ∧ s.eof = true
    · rw [if_pos hn]; exact ⟨_, rfl⟩
    rw [if_neg hn] at hf ⊢
    simp only
    obtain ⟨p1, p2, p3, p4, p5, p6, p7, p8⟩ := pull_spec h.inv h.ready
    obtain ⟨pr1, pr2⟩ := pull_rounds s
    obtain ⟨⟨s1, ev⟩, hpl⟩ : ∃ x, x = s.pull := ⟨_, rfl⟩
    rw [← hpl] at p1 p2 p3 p4 p5 p6 p7 p8 pr1 pr2 ⊢
    simp only at p1 p2 p3 p4 p5 p6 p7 p8 pr1 pr2 ⊢
    by_cases hag : ev = some .again
    · rw [if_pos hag]
      obtain ⟨q1, q2, q3⟩ := p5 hag
      refine ih ⟨p1, q1, by rw [p3]; exact h.buf, fun hn => by rw [q2]; exact h.needs hn⟩ ?_
      have := pr2 (by rw [hag]; simp)
      rw [if_neg (by rw [q3]; exact hn)]
      omega
    · rw [if_neg hag]
      obtain ⟨c1, c2, c3, c4, c5⟩ := call_spec hp p1 (p6 hag) cap
      have csrc := call_src p s1 cap
      obtain ⟨⟨s2, e, out, r⟩, hcall⟩ : ∃ x, x = s1.call p cap := ⟨_, rfl⟩
      rw [← hcall] at c1 c2 c3 c4 c5 csrc ⊢
      simp only at c1 c2 c3 c4 c5 csrc ⊢
      have hb2 : 0 < s2.buf.length := by rw [c2, p3]; exact h.buf
      by_cases herr : s2.avail = 0 ∧ s2.err = true
      · rw [if_pos herr]; exact ⟨_, rfl⟩
      rw [if_neg herr]
      -- the state the next round starts from
      obtain ⟨s3, hs3⟩ : ∃ s3, s3 = (if s2.avail = 0 then s2.front else s2) := ⟨_, rfl⟩
      obtain ⟨n3, hn3⟩ : ∃ n3, n3 = (if s2.avail = 0 then true else stillNeeds ev needs) := ⟨_, rfl⟩
      rw [← hs3, ← hn3]
      have hr3 : rounds s3 = rounds s2 ∧ s3.eof = s2.eof ∧ s3.avail = s2.avail := by
        rw [hs3]
        by_cases ha2 : s2.avail = 0
        · rw [if_pos ha2]
          obtain ⟨-, -, f3, -, f5, -, -, f8⟩ := front_spec c1 ha2 hb2
          refine ⟨?_, f5, by rw [f3, ha2]⟩
          simp only [rounds, f3, f5, f8, ha2]
        · rw [if_neg ha2]; exact ⟨rfl, rfl, rfl⟩
      have hh3 : Head s3 n3 (log ++ ev.toList ++ [e]) := by
        rw [hs3, hn3]
        by_cases ha2 : s2.avail = 0
        · rw [if_pos ha2, if_pos ha2]
          obtain ⟨f1, f2, f3, f4, -⟩ := front_spec c1 ha2 hb2
          exact ⟨f1, f2, by rw [f4]; exact hb2, fun _ => f3⟩
        · rw [if_neg ha2, if_neg ha2]
          refine ⟨c1, fun h0 => absurd h0 ha2, hb2, fun hne => ?_⟩
          have ha1 : s1.avail ≠ 0 := by
            rcases c5 with c5 | c5
            · exact absurd c5.2.2.2.1 ha2
            · exact c5.1
          rcases p7 with ⟨bs, h7⟩ | h7
          · rw [h7] at hne; simp [stillNeeds] at hne
          · have : needs = true := by
              unfold stillNeeds at hne
              split at hne <;> simp_all
            rw [h.needs this] at h7
            exact absurd h7 ha1
      have hle : rounds s3 + (if ev = none then 0 else 1) ≤ rounds s := by
        have h2 : rounds s2 ≤ rounds s1 := by
          simp only [rounds, csrc, c3]
          rcases c5 with c5 | c5
          · have := c5.2.2.2.1; omega
          · have := c5.2.2.2.1; omega
        rw [hr3.1]
        split
        · omega
        · next hev => have := pr2 hev; omega
      -- unless the round returns, it makes progress or is the last but one
      have hgo : out = [] → r ≠ .failure →
          (if n3 = true ∧ s3.eof = true then 1 else rounds s3 + 2) ≤ fuel := by
        intro ho hrf
        split
        · omega
        · next hne =>
          by_cases hev : ev = none
          · rcases c5 with c5 | c5
            · exfalso
              apply hne
              have ha2 := c5.2.2.2.1
              refine ⟨by rw [hn3, if_pos ha2], ?_⟩
              rw [hr3.2.1, c3]
              exact p6 hag c5.1
            · obtain ⟨d1, -, -, d4, d5⟩ := c5
              have hpn : s1.pending ≠ [] := fun h0 => d1 ((pending_eq_nil p1.off p1.len).mp h0)
              have hq := hpg s1.cd s1.pending cap hpn hc
              rw [← d5] at hq
              simp only at hq
              rcases hq with hq | hq | hq
              · have h2 : rounds s2 < rounds s1 := by
                  simp only [rounds, csrc, c3]; omega
                rw [hr3.1]; omega
              · exact absurd ho hq
              · exact absurd hq hrf
          · rw [if_neg hev] at hle; omega
      have hfin : ∀ b : Prop, [Decidable b] → r ≠ .failure →
          ∃ x, (if b then some (s3, log ++ ev.toList ++ [e], Got.ok out)
            else if out = [] then Reader.loop p cap fuel s3 n3 (log ++ ev.toList ++ [e])
            else some (s3, log ++ ev.toList ++ [e], Got.ok out)) = some x := by
        intro b _ hrf
        split
        · exact ⟨_, rfl⟩
        · split
          · next ho => exact ih hh3 (hgo ho hrf)
          · exact ⟨_, rfl⟩
      cases r with
      | failure => exact ⟨_, rfl⟩
      | success => exact hfin _ (by simp)
      | needsInput => exact hfin _ (by simp)
      | needsOutput => exact hfin _ (by simp)

/-- **C25, every read returns.** With a codec that always does something when it has input and output
space, every read with room for at least one byte returns, in any history, within a number of rounds
bounded by what is left of the source and of the buffer. -/
theorem read_returns {p : Proc σ} (hp : p.Lawful) (hpg : Progress p) {cd : σ} {buf : List UInt8}
    (hb : 0 < buf.length) {nf : Bool} {src : List Ev} {fuel : Nat} {caps : List Nat} {s : Reader σ}
    {log : List Entry} {gs : List Got}
    (hr : reads p fuel caps (Reader.new cd buf nf src) [] = some (s, log, gs)) {cap : Nat}
    (hc : 0 < cap) : ∃ x, s.read p (rounds s + 2) cap log = some x :=
  loop_returns hp hpg hc _ (reads_spec hp fuel caps (head_new cd hb nf src) hr).1 (by simp)

/-- A source that fails after some bytes: they are delivered, then the error, then the end. -/
example : (reads toy 10 [4, 4, 4] (Reader.new false [0, 0, 0] true [.data [7, 8, 255], .fail]) []).map
    (fun x => (x.2.2, decide (Entry.failed ∈ x.2.1))) = some ([.ok [7, 8], .ioErr, .ok []], true) := by
  decide +kernel

/-- The two codecs of the examples meet the hypotheses. -/
theorem tail_prompt : Prompt tail := by
  intro c n hn
  cases c <;> simp [tail] <;> split <;> simp

theorem tail_progress : Progress tail := by
  intro c i n hi hn
  cases i with
  | nil => exact absurd rfl hi
  | cons b bs => exact Or.inl (by simp [tail]; omega)

/-- A codec that takes everything: it counts its input and writes the count when closed. -/
def count : Proc Nat :=
  ⟨fun c i _ => (c + i.length, i.length, [], .needsInput),
    fun c n => if n = 0 then (c, [], .needsOutput)
      else if c = 0 then (0, [], .success) else (0, [UInt8.ofNat c], .success)⟩

example : count.Lawful ∧ Prompt count ∧ Greedy count ∧ Progress count := by
  refine ⟨⟨fun _ _ _ => Nat.le_refl _, fun _ _ _ => Nat.zero_le _, fun c n => ?_⟩, fun c n hn => ?_,
    fun _ _ _ _ => rfl, fun c i n hi _ => Or.inl (List.length_pos_iff.mpr hi)⟩
  · simp only [count]
    split
    · exact Nat.zero_le _
    · split
      · exact Nat.zero_le _
      · simp; omega
  · simp only [count]
    rw [if_neg (by omega)]
    split <;> simp

example : reads count 20 [3, 3] (Reader.new 0 [0, 0] true [.data [7, 8, 9], .interrupted, .data [1]]) []
    = some (⟨0, [1, 8], 0, 0, true, true, false, []⟩,
      [.got [7, 8], .fed [7, 8] 2 [] .needsInput, .got [9], .fed [9] 1 [] .needsInput, .again,
        .got [1], .fed [1] 1 [] .needsInput, .ended, .closed [4] .success, .closed [] .success],
      [.ok [4], .ok []]) := by decide +kernel

/-! ### The writer -/

/-- One call on the writer. -/
inductive WOp where
  /-- `write(bs)` -/
  | write (bs : List UInt8)
  /-- `flush()`; whether the sink's own `flush` succeeds -/
  | flush (sinkOk : Bool)
deriving Repr, DecidableEq

/-- One call. -/
def wstep (p : Proc σ) (fuel : Nat) (w : Writer σ) (log : List Entry) :
    WOp → Option (Writer σ × List Entry × Put)
  | .write bs => w.write p fuel bs log
  | .flush ok => w.flush p ok fuel log

/-- A sequence of calls. -/
def writes (p : Proc σ) (fuel : Nat) : List WOp → Writer σ → List Entry →
    Option (Writer σ × List Entry × List Put)
  | [], w, log => some (w, log, [])
  | o :: os, w, log =>
    match wstep p fuel w log o with
    | none => none
    | some (w', log', g) => (writes p fuel os w' log').map fun x => (x.1, x.2.1, g :: x.2.2)

theorem sinkBytes_append (a b : List Entry) : sinkBytes (a ++ b) = sinkBytes a ++ sinkBytes b := by
  simp [sinkBytes]

/-- What holds of the part of the log one call adds. -/
structure Added (w w' : Writer σ) (new : List Entry) : Prop where
  sink : Entry.writeFailed ∉ new → sinkBytes new = produced new
  flushed : w'.flushed = true → w.flushed = true ∨ Finished new
  stays : w.flushed = true → w'.flushed = true
  closed : w.flushed = true → ∀ out r, Entry.closed out r ∉ new

theorem Added.trans {w w' w'' : Writer σ} {a b : List Entry} (h1 : Added w w' a)
    (h2 : Added w' w'' b) : Added w w'' (a ++ b) := by
  refine ⟨fun h => ?_, fun h => ?_, fun h => h2.stays (h1.stays h), fun h out r hm => ?_⟩
  · rw [sinkBytes_append, produced_append, h1.sink (fun h' => h (by simp [h'])),
      h2.sink (fun h' => h (by simp [h']))]
  · rcases h2.flushed h with h | ⟨o, h⟩
    · rcases h1.flushed h with h | ⟨o, h⟩
      · exact Or.inl h
      · exact Or.inr ⟨o, by simp [h]⟩
    · exact Or.inr ⟨o, by simp [h]⟩
  · rcases List.mem_append.mp hm with hm | hm
    · exact h1.closed h out r hm
    · exact h2.closed (h1.stays h) out r hm

theorem Added.refl (w : Writer σ) : Added w w [] :=
  ⟨fun _ => rfl, fun h => Or.inl h, fun h => h, fun _ _ _ h => by simp at h⟩

theorem emit_spec (w : Writer σ) (bs : List UInt8) :
    (w.emit bs).1.flushed = w.flushed ∧ (w.emit bs).1.cd = w.cd ∧ (w.emit bs).1.cap = w.cap ∧
      ((w.emit bs).2 = (.writeFailed, false) ∨ (w.emit bs).2 = (.wrote bs, true)) := by
  unfold Writer.emit
  split <;> simp

theorem wloop_spec (p : Proc σ) (total fuel : Nat) {w : Writer σ} {left : List UInt8}
    {log : List Entry} {w' : Writer σ} {log' : List Entry} {g : Put}
    (hl : w.loop p total fuel left log = some (w', log', g)) :
    ∃ new, log' = log ++ new ∧ Added w w' new ∧
      (∀ n, g = .ok n → n = total ∧ ∃ rest, fedBytes new ++ rest = left ∧
        (rest ≠ [] → ∃ inp k out, Entry.fed inp k out .success ∈ new)) := by
  induction fuel generalizing w left log with
  | zero => simp [Writer.loop] at hl
  | succ fuel ih =>
    rw [Writer.loop] at hl
    obtain ⟨⟨c, n, out, r⟩, hx⟩ : ∃ x, x = p.process w.cd left w.cap := ⟨_, rfl⟩
    rw [← hx] at hl
    simp only at hl
    obtain ⟨e1, e2, e3, e4⟩ := emit_spec ({ w with cd := c } : Writer σ) out
    obtain ⟨⟨w1, en, ok⟩, he⟩ : ∃ x, x = Writer.emit ({ w with cd := c } : Writer σ) out := ⟨_, rfl⟩
    rw [← he] at e1 e2 e3 e4 hl
    simp only at e1 e2 e3 e4 hl
    have hadd : Added w w1 [.fed left n out r, en] := by
      refine ⟨fun hf => ?_, fun hf => Or.inl (by rw [← e1]; exact hf), fun hf => by rw [e1]; exact hf,
        fun _ o r hm => ?_⟩
      · rcases e4 with e4 | e4
        · cases e4; simp at hf
        · cases e4; simp [sinkBytes, produced]
      · rcases e4 with e4 | e4
        · cases e4; simp at hm
        · cases e4; simp at hm
    have hfed : fedBytes [.fed left n out r, en] = left.take n := by
      rcases e4 with e4 | e4
      · cases e4; simp [fedBytes]
      · cases e4; simp [fedBytes]
    by_cases hok : ok = false
    · rw [if_pos hok] at hl
      cases hl
      exact ⟨_, rfl, hadd, by simp⟩
    rw [if_neg hok] at hl
    cases r with
    | needsInput =>
      simp only at hl
      by_cases hr : left.drop n ≠ []
      · rw [if_pos hr] at hl
        cases hl
        exact ⟨_, rfl, hadd, by simp⟩
      · rw [if_neg hr] at hl
        cases hl
        refine ⟨_, rfl, hadd, fun m hm => ?_⟩
        cases hm
        exact ⟨rfl, left.drop n, by rw [hfed, List.take_append_drop], fun h => absurd h hr⟩
    | needsOutput =>
      simp only at hl
      obtain ⟨new, h1, h2, h3⟩ := ih hl
      refine ⟨[.fed left n out .needsOutput, en] ++ new, by rw [h1, List.append_assoc],
        hadd.trans h2, fun m hm => ?_⟩
      obtain ⟨h4, rest, h5, h6⟩ := h3 m hm
      refine ⟨h4, rest, ?_, fun h => ?_⟩
      · rw [fedBytes_append, hfed, List.append_assoc, h5, List.take_append_drop]
      · obtain ⟨a, b, d, h7⟩ := h6 h
        exact ⟨a, b, d, List.mem_append_right _ h7⟩
    | success =>
      cases hl
      refine ⟨_, rfl, hadd, fun m hm => ?_⟩
      cases hm
      exact ⟨rfl, left.drop n, by rw [hfed, List.take_append_drop],
        fun _ => ⟨left, n, out, by simp⟩⟩
    | failure =>
      cases hl
      exact ⟨_, rfl, hadd, by simp⟩

theorem wflush_spec (p : Proc σ) (sinkOk : Bool) (fuel : Nat) {w : Writer σ} {log : List Entry}
    {w' : Writer σ} {log' : List Entry} {g : Put}
    (hl : w.flush p sinkOk fuel log = some (w', log', g)) :
    ∃ new, log' = log ++ new ∧ Added w w' new ∧ (∀ n, g = .ok n → w'.flushed = true) := by
  induction fuel generalizing w log with
  | zero => simp [Writer.flush] at hl
  | succ fuel ih =>
    rw [Writer.flush] at hl
    by_cases hfl : w.flushed = true
    · rw [if_pos hfl] at hl
      cases hl
      exact ⟨[], by simp, Added.refl _, fun _ _ => hfl⟩
    rw [if_neg hfl] at hl
    simp only at hl
    obtain ⟨⟨c, out, r⟩, hx⟩ : ∃ x, x = p.close w.cd w.cap := ⟨_, rfl⟩
    rw [← hx] at hl
    simp only at hl
    obtain ⟨e1, e2, e3, e4⟩ := emit_spec ({ w with cd := c } : Writer σ) out
    obtain ⟨⟨w1, en, ok⟩, he⟩ : ∃ x, x = Writer.emit ({ w with cd := c } : Writer σ) out := ⟨_, rfl⟩
    rw [← he] at e1 e2 e3 e4 hl
    simp only at e1 e2 e3 e4 hl
    have hsink : Entry.writeFailed ∉ [.closed out r, en] →
        sinkBytes [.closed out r, en] = produced [.closed out r, en] := by
      intro hf
      rcases e4 with e4 | e4
      · cases e4; simp at hf
      · cases e4; simp [sinkBytes, produced]
    have hadd : Added w w1 [.closed out r, en] :=
      ⟨hsink, fun hf => Or.inl (by rw [← e1]; exact hf), fun hf => absurd hf hfl,
        fun hf => absurd hf hfl⟩
    by_cases hok : ok = false
    · rw [if_pos hok] at hl
      cases hl
      exact ⟨_, rfl, hadd, by simp⟩
    rw [if_neg hok] at hl
    cases r with
    | failure =>
      cases hl
      exact ⟨_, rfl, hadd, by simp⟩
    | success =>
      simp only at hl
      obtain ⟨new, h1, h2, h3⟩ := ih hl
      have hadd2 : Added w ({ w1 with flushed := true } : Writer σ) [.closed out .success, en] :=
        ⟨hsink, fun _ => Or.inr ⟨out, by simp⟩, fun hf => absurd hf hfl, fun hf => absurd hf hfl⟩
      exact ⟨_, by rw [h1, List.append_assoc], hadd2.trans h2, h3⟩
    | needsInput =>
      simp only at hl
      obtain ⟨new, h1, h2, h3⟩ := ih hl
      exact ⟨_, by rw [h1, List.append_assoc], hadd.trans h2, h3⟩
    | needsOutput =>
      simp only at hl
      obtain ⟨new, h1, h2, h3⟩ := ih hl
      exact ⟨_, by rw [h1, List.append_assoc], hadd.trans h2, h3⟩

theorem wstep_spec (p : Proc σ) (fuel : Nat) {o : WOp} {w : Writer σ} {log : List Entry}
    {w' : Writer σ} {log' : List Entry} {g : Put} (hl : wstep p fuel w log o = some (w', log', g)) :
    ∃ new, log' = log ++ new ∧ Added w w' new := by
  cases o with
  | write bs =>
    obtain ⟨new, h1, h2, -⟩ := wloop_spec p _ fuel hl
    exact ⟨new, h1, h2⟩
  | flush ok =>
    obtain ⟨new, h1, h2, -⟩ := wflush_spec p ok fuel hl
    exact ⟨new, h1, h2⟩

theorem writes_spec (p : Proc σ) (fuel : Nat) (os : List WOp) {w : Writer σ} {log : List Entry}
    {w' : Writer σ} {log' : List Entry} {gs : List Put}
    (hl : writes p fuel os w log = some (w', log', gs)) :
    ∃ new, log' = log ++ new ∧ Added w w' new := by
  induction os generalizing w log gs with
  | nil =>
    simp only [writes, Option.some.injEq, Prod.mk.injEq] at hl
    obtain ⟨rfl, rfl, rfl⟩ := hl
    exact ⟨[], by simp, Added.refl w⟩
  | cons o os ih =>
    simp only [writes] at hl
    cases h1 : wstep p fuel w log o with
    | none => rw [h1] at hl; simp at hl
    | some x =>
      obtain ⟨w1, log1, g⟩ := x
      rw [h1] at hl
      simp only at hl
      cases h2 : writes p fuel os w1 log1 with
      | none => rw [h2] at hl; simp at hl
      | some y =>
        obtain ⟨w2, log2, gs2⟩ := y
        rw [h2] at hl
        simp only [Option.map_some, Option.some.injEq, Prod.mk.injEq] at hl
        obtain ⟨rfl, rfl, rfl⟩ := hl
        obtain ⟨n1, a1, b1⟩ := wstep_spec p fuel h1
        obtain ⟨n2, a2, b2⟩ := ih h2
        exact ⟨n1 ++ n2, by rw [a2, a1, List.append_assoc], b1.trans b2⟩

/-- **C26, forwarding.** In every history of writes and flushes, with every codec and every buffer
size, as long as no write to the sink fails, the sink has received exactly the bytes the codec
produced, in order. -/
theorem writer_forwards {p : Proc σ} {fuel : Nat} {os : List WOp} {cd : σ} {cap : Nat} {nf : Bool}
    {sink : List Bool} {w : Writer σ} {log : List Entry} {gs : List Put}
    (hr : writes p fuel os (Writer.new cd cap nf sink) [] = some (w, log, gs))
    (hs : Entry.writeFailed ∉ log) : sinkBytes log = produced log := by
  obtain ⟨new, e, h⟩ := writes_spec p fuel os hr
  rw [e, List.nil_append] at hs ⊢
  exact h.sink hs

/-- **C26, writes.** A write that succeeds reports all its bytes as written, and the codec has taken
them all, in order, or has said that its stream has ended. -/
theorem write_takes_all {p : Proc σ} {fuel : Nat} {w w' : Writer σ} {bs : List UInt8}
    {log log' : List Entry} {n : Nat} (hr : w.write p fuel bs log = some (w', log', .ok n)) :
    n = bs.length ∧ ∃ new, log' = log ++ new ∧ ∃ rest, fedBytes new ++ rest = bs ∧
      (rest ≠ [] → ∃ inp k out, Entry.fed inp k out .success ∈ new) := by
  obtain ⟨new, h1, -, h3⟩ := wloop_spec p _ fuel hr
  obtain ⟨h4, h5⟩ := h3 n rfl
  exact ⟨h4, new, h1, h5⟩

/-- **C26, flush, the part that holds.** For a writer created to finalise its codec (the compressing
writers): in every history, when a flush succeeds, the codec has been closed successfully.  Missing:
the decompressing writer, for which it is false (`decompressor_writer_never_closes`,
`truncation_unreported`). -/
theorem flush_finishes_partial {p : Proc σ} {fuel : Nat} {os : List WOp} {cd : σ} {cap : Nat}
    {sink : List Bool} {w : Writer σ} {log : List Entry} {gs : List Put}
    (hr : writes p fuel os (Writer.new cd cap true sink) [] = some (w, log, gs)) {ok : Bool} {n : Nat}
    {w' : Writer σ} {log' : List Entry}
    (hf : w.flush p ok fuel log = some (w', log', .ok n)) : Finished log' := by
  obtain ⟨new, e, h⟩ := writes_spec p fuel os hr
  obtain ⟨new2, e2, h2, h3⟩ := wflush_spec p ok fuel hf
  rw [e2, e, List.nil_append]
  rcases (h.trans h2).flushed (h3 n rfl) with h4 | h4
  · simp [Writer.new] at h4
  · exact h4

/-- **C26 fails.** The decompressing writer (created with `needs_flush = false`) never closes its
codec, whatever the codec and the history. -/
theorem decompressor_writer_never_closes {p : Proc σ} {fuel : Nat} {os : List WOp} {cd : σ}
    {cap : Nat} {sink : List Bool} {w : Writer σ} {log : List Entry} {gs : List Put}
    (hr : writes p fuel os (Writer.new cd cap false sink) [] = some (w, log, gs)) (out : List UInt8)
    (r : Res) : Entry.closed out r ∉ log := by
  obtain ⟨new, e, h⟩ := writes_spec p fuel os hr
  rw [e, List.nil_append]
  exact h.closed rfl out r

/-- So a truncated stream is not reported: the write and the flush succeed, although `close` fails. -/
theorem truncation_unreported :
    writes toy 10 [.write [7], .flush true] (Writer.new false 4 false []) []
        = some (⟨false, 4, true, []⟩, [.fed [7] 1 [7] .needsInput, .wrote [7]], [.ok 1, .ok 0]) ∧
      (toy.close false 4).2.2 = .failure := by decide +kernel

/-- With `needs_flush = true` the same stream is reported. -/
example : writes toy 10 [.write [7], .flush true] (Writer.new false 4 true []) []
    = some (⟨false, 4, false, []⟩,
      [.fed [7] 1 [7] .needsInput, .wrote [7], .closed [] .failure, .wrote []],
      [.ok 1, .codecErr]) := by decide +kernel

/-- Bytes after the end of the stream are reported as written, and ignored. -/
theorem trailing_ignored :
    writes toy 10 [.write [7, 255, 8, 9]] (Writer.new false 4 true []) []
      = some (⟨true, 4, false, []⟩, [.fed [7, 255, 8, 9] 2 [7] .success, .wrote [7]], [.ok 4]) := by
  decide +kernel

/-- A second flush does not finalise what was written since the first. -/
theorem second_flush_does_nothing :
    writes count 10 [.write [7], .flush true, .write [8], .flush true] (Writer.new 0 4 true []) []
      = some (⟨1, 4, true, []⟩,
        [.fed [7] 1 [] .needsInput, .wrote [], .closed [1] .success, .wrote [1],
          .fed [8] 1 [] .needsInput, .wrote []], [.ok 1, .ok 0, .ok 1, .ok 0]) := by
  decide +kernel

/-- A history with a small output buffer and several rounds. -/
example : writes toy 10 [.write [7, 8, 1, 9], .write [255], .flush true] (Writer.new false 2 true []) []
    = some (⟨true, 2, true, []⟩,
      [.fed [7, 8, 1, 9] 2 [7, 8] .needsOutput, .wrote [7, 8], .fed [1, 9] 2 [9] .needsInput, .wrote [9],
        .fed [255] 1 [] .success, .wrote [], .closed [] .success, .wrote []],
      [.ok 4, .ok 1, .ok 0]) := by decide +kernel

end Divans.Io
