import Verif.MuxScan
import Mathlib.Tactic.ByContra

/-!
# Serialisation writes records that the byte automaton reads back
-/

namespace Divans.Mux

/-- Bytes of stream `i` that belong to a record already begun. -/
def lo (m : Mux) (i : Bool) : Nat := if i = m.cur then m.avail else 0

/-- The invariant of a multiplexer that serialises: cursors in order, the unfinished record lies
inside the unread bytes, and there is room for a header in front of whatever comes after it. -/
structure Inv (m : Mux) : Prop where
  ok : m.Ok
  fits : ∀ i, (m.buf i).start + lo m i ≤ (m.buf i).stop
  room : ∀ i, 3 ≤ (m.buf i).start + lo m i ∨ (m.buf i).mem = []

/-- The reader's initial state. -/
def Scan.init : Scan := ⟨.none, .running, fun _ => []⟩

/-- `out` followed by the rest of the record already begun is read back as a prefix of the pushed
bytes `P`; what is missing is what is still unread in the buffers. -/
def Rel (m : Mux) (P : Bool → List UInt8) (out : List UInt8) : Prop :=
  (∃ s, runAll .init (out ++ (m.unread m.cur).take m.avail) = some s ∧ s.btd = .none ∧
    s.eof = m.eof ∧ ∀ i, s.out i ++ (m.unread i).drop (lo m i) = P i) ∧
  (m.eof = .done → ∀ i, m.unread i = [])

theorem inv_new : Inv Mux.new :=
  ⟨ok_new, by intro i; cases i <;> simp [Mux.new, lo, Buf.empty], by intro i; exact Or.inr rfl⟩

theorem rel_new : Rel Mux.new (fun _ => []) [] := by
  refine ⟨⟨Scan.init, ?_, rfl, rfl, ?_⟩, ?_⟩
  · simp [runAll, Mux.new]
  · intro i; simp [Scan.init, Mux.new, Mux.unread, Buf.unread, Buf.empty]
  · intro h; simp [Mux.new] at h

theorem getCode_spec (i : Bool) (n : Nat) (lag : Bool) (hn : 0 < n) :
    ∃ hdr k, getCode i n lag = some (hdr, k) ∧ 1 ≤ k ∧ k ≤ n ∧ 1 ≤ hdr.length ∧ hdr.length ≤ 3 ∧
      ∀ e, e ≠ .done → ∀ o, runAll ⟨.none, e, o⟩ hdr = some ⟨.some i k, e, o⟩ := by
  unfold getCode
  by_cases h1 : (lag = false ∨ n = 4096 ∨ n = 16384 ∨ n ≥ 65536) ∧ ¬ n < 4096
  · rw [if_pos h1]
    have fixed : ∀ (b : UInt8) (k : Nat), fixedSize b = k + 1 → idOf b = i → ¬ b.toNat < 16 →
        b ≠ 0xff → b ≠ 0xfe →
        ∀ e, e ≠ .done → ∀ o, runAll ⟨.none, e, o⟩ [b] = some ⟨.some i (k + 1), e, o⟩ := by
      intro b k hb hi h16 hf hg e he o
      simp [runAll, step, he, isMark, hf, hg, h16, hb, hi, norm_succ]
    by_cases h2 : n < 16384
    · rw [if_pos h2]
      refine ⟨_, _, rfl, by omega, by omega, by simp, by simp, ?_⟩
      cases i
      · exact fixed 16 4095 (by decide +kernel) (by decide) (by decide) (by decide) (by decide)
      · exact fixed 17 4095 (by decide +kernel) (by decide) (by decide) (by decide) (by decide)
    · rw [if_neg h2]
      by_cases h3 : n < 65536
      · rw [if_pos h3]
        refine ⟨_, _, rfl, by omega, by omega, by simp, by simp, ?_⟩
        cases i
        · exact fixed 32 16383 (by decide +kernel) (by decide) (by decide) (by decide) (by decide)
        · exact fixed 33 16383 (by decide +kernel) (by decide) (by decide) (by decide) (by decide)
      · rw [if_neg h3]
        refine ⟨_, _, rfl, by omega, by omega, by simp, by simp, ?_⟩
        cases i
        · exact fixed 48 65535 (by decide +kernel) (by decide) (by decide) (by decide) (by decide)
        · exact fixed 49 65535 (by decide +kernel) (by decide) (by decide) (by decide) (by decide)
  · rw [if_neg h1]
    have h2 : n < 65536 := by
      rcases Nat.lt_or_ge n 65536 with h | h
      · exact h
      · exact absurd ⟨Or.inr (Or.inr (Or.inr h)), by omega⟩ h1
    rw [if_neg (by omega)]
    refine ⟨_, _, rfl, by omega, by omega, by simp [varHeader], by simp [varHeader], ?_⟩
    intro e he o
    have hid : idOf (idByte i) = i := by cases i <;> decide
    have hb : (idByte i).toNat < 16 := by cases i <;> decide
    have hmk : ¬ isMark e (idByte i) := by cases i <;> simp [isMark, idByte]
    have hlen : (UInt8.ofNat ((n - 1) % 256)).toNat + 256 * (UInt8.ofNat ((n - 1) / 256 % 256)).toNat + 1
        = n := by
      simp only [UInt8.toNat_ofNat']
      omega
    simp only [varHeader, runAll, step, he, if_false, hmk, hb, if_true, hid, Option.bind_some, hlen]

theorem lo_of_zero {m : Mux} (h : m.avail = 0) (i : Bool) : lo m i = 0 := by
  unfold lo; split <;> simp [h]

/-- How many bytes stream `i` still costs at most: the rest of the record begun, and four bytes for
each byte not in a record yet (a header of at most three bytes and at least one byte of payload). -/
def costOf (m : Mux) (i : Bool) : Nat :=
  lo m i + 4 * ((m.buf i).stop - (m.buf i).start - lo m i)

/-- How many bytes serialising everything that is pending takes at most. -/
def cost (m : Mux) : Nat := costOf m false + costOf m true

theorem cost_other (m : Mux) (i : Bool) : cost m = costOf m i + costOf m (!i) := by
  cases i <;> simp [cost, Nat.add_comm]

/-- The size of a header: one byte for records of 4096 bytes or more, three for all that is pending. -/
theorem getCode_size {i : Bool} {n k : Nat} {lag : Bool} {hdr : List UInt8} (h : getCode i n lag = some (hdr, k)) :
    (hdr.length = 1 ∧ 4096 ≤ k) ∨ (hdr.length = 3 ∧ k = n) := by
  unfold getCode at h
  split_ifs at h <;> simp only [Option.some.injEq, Prod.mk.injEq] at h <;> obtain ⟨rfl, rfl⟩ := h <;> simp [varHeader]

/-- What stream `i` still costs at most, in parts of 4096 of a byte: the rest of the record begun, each byte not in a record yet with
its part of a header of one byte for 4096, and a header of three bytes if there are such bytes. -/
def priceOf (m : Mux) (i : Bool) : Nat :=
  4096 * lo m i + 4097 * ((m.buf i).stop - (m.buf i).start - lo m i) + 12288 * min 1 ((m.buf i).stop - (m.buf i).start - lo m i)

/-- The same for both streams. -/
def price (m : Mux) : Nat := priceOf m false + priceOf m true

theorem price_other (m : Mux) (i : Bool) : price m = priceOf m i + priceOf m (!i) := by
  cases i <;> simp [price, Nat.add_comm]

/-- From one state and output to another: what every serialising operation guarantees. -/
structure Tr (room : Nat) (m : Mux) (out : List UInt8) (m' : Mux) (out' : List UInt8) : Prop where
  inv : Inv m'
  len : out'.length ≤ room
  full : m'.avail ≠ 0 → out'.length = room
  eof : m'.eof = m.eof
  ext : out <+: out'
  rel : ∀ P pre, Rel m P (pre ++ out) → Rel m' P (pre ++ out')
  cost : cost m' + out'.length ≤ cost m + out.length
  price : price m' + 4096 * out'.length ≤ price m + 4096 * out.length

theorem Tr.refl {room : Nat} {m : Mux} {out : List UInt8} (hi : Inv m) (hl : out.length ≤ room)
    (hf : m.avail ≠ 0 → out.length = room) : Tr room m out m out :=
  ⟨hi, hl, hf, rfl, List.prefix_rfl, fun _ _ h => h, Nat.le_refl _, Nat.le_refl _⟩

theorem Tr.trans {room : Nat} {m m' m'' : Mux} {out out' out'' : List UInt8}
    (h1 : Tr room m out m' out') (h2 : Tr room m' out' m'' out'') : Tr room m out m'' out'' :=
  ⟨h2.inv, h2.len, h2.full, h2.eof.trans h1.eof, h1.ext.trans h2.ext,
    fun P pre h => h2.rel P pre (h1.rel P pre h), by have := h1.cost; have := h2.cost; omega,
    by have := h1.price; have := h2.price; omega⟩

theorem leftover_spec {m : Mux} (hi : Inv m) (room : Nat) :
    ∃ m' out, leftover m room = some (m', out) ∧ Tr room m [] m' out ∧
      out.length = min m.avail room := by
  have hok := hi.ok m.cur
  have hfit := hi.fits m.cur
  have hun := unread_length hok
  simp only [lo, if_true] at hfit
  have hlen : (m.buf m.cur).start + min m.avail room ≤ (m.buf m.cur).mem.length := by
    obtain ⟨h1, h2⟩ := hok; omega
  have hrd : ((m.buf m.cur).mem.drop (m.buf m.cur).start).take (min m.avail room) =
      (m.unread m.cur).take (min m.avail room) := by
    unfold Mux.unread Buf.unread
    rw [List.take_take]
    congr 1
    omega
  have hun' : ({ m.buf m.cur with start := (m.buf m.cur).start + min m.avail room } : Buf).unread =
      (m.unread m.cur).drop (min m.avail room) := by
    simp only [Mux.unread, Buf.unread]
    rw [List.drop_take, List.drop_drop]
    congr 1
    omega
  have hlo : (m.unread m.cur).length = (m.buf m.cur).stop - (m.buf m.cur).start := hun
  have hleft : leftover m room = some ({ m with
      buf := upd m.buf m.cur { m.buf m.cur with start := (m.buf m.cur).start + min m.avail room },
      avail := m.avail - min m.avail room }, (m.unread m.cur).take (min m.avail room)) := by
    simp only [leftover, readAt_some hlen, Option.bind_eq_bind, Option.bind_some, hrd]
  refine ⟨_, _, hleft, ⟨⟨?_, ?_, ?_⟩, ?_, ?_, rfl, List.nil_prefix, ?_, ?_, ?_⟩, ?_⟩
  · intro j
    by_cases hj : j = m.cur
    · subst hj
      simp only [upd_same]
      obtain ⟨h1, h2⟩ := hok
      exact ⟨by simp only; omega, h2⟩
    · simp only [upd_ne _ _ hj]; exact hi.ok j
  · intro j
    by_cases hj : j = m.cur
    · subst hj
      simp only [upd_same, lo, if_true]; omega
    · have := hi.fits j
      simp only [lo, hj, if_false, upd_ne _ _ hj] at this ⊢; exact this
  · intro j
    by_cases hj : j = m.cur
    · subst hj
      have := hi.room m.cur
      simp only [upd_same, lo, if_true] at this ⊢
      rcases this with h | h
      · left; omega
      · right; exact h
    · have := hi.room j
      simp only [lo, hj, if_false, upd_ne _ _ hj] at this ⊢; exact this
  · rw [List.length_take]; omega
  · intro h
    simp only at h
    rw [List.length_take]; omega
  · rintro P pre ⟨⟨s, hrun, hb, he, ho⟩, hdone⟩
    have hcur : ({ m with
        buf := upd m.buf m.cur { m.buf m.cur with start := (m.buf m.cur).start + min m.avail room },
        avail := m.avail - min m.avail room } : Mux).unread m.cur =
        (m.unread m.cur).drop (min m.avail room) := by
      simp only [Mux.unread, upd_same]; exact hun'
    refine ⟨⟨s, ?_, hb, he, ?_⟩, ?_⟩
    · simp only at hcur ⊢
      rw [hcur]
      rw [List.append_nil] at hrun
      rw [← hrun, List.append_assoc, ← List.take_add]
      congr 3
      omega
    · intro j
      rw [← ho j]
      congr 1
      by_cases hj : j = m.cur
      · subst hj
        rw [hcur]
        simp only [lo, if_true, List.drop_drop]
        congr 1
        omega
      · simp only [Mux.unread, upd_ne _ _ hj, lo, hj, if_false]
    · intro hd j
      have := hdone hd j
      by_cases hj : j = m.cur
      · subst hj
        rw [hcur, this, List.drop_nil]
      · simp only [Mux.unread, upd_ne _ _ hj] at this ⊢; exact this
  · rw [cost_other _ m.cur, cost_other m m.cur, List.length_take, List.length_nil]
    have hn : (!m.cur) ≠ m.cur := by cases m.cur <;> decide
    simp only [costOf, lo, if_true, upd_same, upd_ne _ _ hn, hn, if_false]
    omega
  · rw [price_other _ m.cur, price_other m m.cur, List.length_take, List.length_nil]
    have hn : (!m.cur) ≠ m.cur := by cases m.cur <;> decide
    simp only [priceOf, lo, if_true, upd_same, upd_ne _ _ hn, hn, if_false]
    omega
  · rw [List.length_take]; omega

/-- The arithmetic of one record: what it costs is paid by the bytes in it. -/
theorem emit_price {n h k w l r : Nat} (hsz : (h = 1 ∧ 4096 ≤ k) ∨ (h = 3 ∧ k = n)) (hk : 1 ≤ k) (hkn : k ≤ n) (hw : w ≤ k + h)
    (hl : l = k + h - w) (hr : r = n - k) :
    4096 * l + 4097 * r + 12288 * min 1 r + 4096 * w ≤ 4096 * 0 + 4097 * (n - 0) + 12288 * min 1 (n - 0) := by
  omega

theorem price_step {a a' b o w : Nat} (h : a' + 4096 * w ≤ a) : a' + b + 4096 * (o + w) ≤ a + b + 4096 * o := by
  omega

theorem emit_spec {m : Mux} (hi : Inv m) (ha : m.avail = 0) (i : Bool)
    (hpend : (m.buf i).start ≠ (m.buf i).stop) (room : Nat) (lag : Bool) (out : List UInt8)
    (hout : out.length ≤ room) :
    ∃ m' bytes, emit m i (room - out.length) lag = some (m', bytes) ∧
      Tr room m out m' (out ++ bytes) ∧ (out.length < room → bytes ≠ []) := by
  have hok := hi.ok i
  obtain ⟨h1, h2⟩ := hok
  have hun := unread_length (hi.ok i)
  have h3 : 3 ≤ (m.buf i).start := by
    rcases hi.room i with h | h
    · rw [lo_of_zero ha] at h; omega
    · rw [h, List.length_nil] at h2; omega
  obtain ⟨hdr, k, hcode, hk1, hkn, hh1, hh3, hrun⟩ :=
    getCode_spec i ((m.buf i).stop - (m.buf i).start) lag (by omega)
  have hwr : (m.buf i).start - hdr.length + hdr.length ≤ (m.buf i).mem.length := by omega
  -- the memory with the header in place, from the header on
  obtain ⟨mem, hmem, hmlen, hmem'⟩ : ∃ mem, writeAt (m.buf i).mem ((m.buf i).start - hdr.length) hdr =
      some mem ∧ mem.length = (m.buf i).mem.length ∧
      (mem.drop ((m.buf i).start - hdr.length)).take
        ((m.buf i).stop - ((m.buf i).start - hdr.length)) = hdr ++ (m.buf i).unread := by
    refine ⟨_, writeAt_some hwr, writeAt_length (writeAt_some hwr), ?_⟩
    rw [drop_write _ _ _ (by omega), show (m.buf i).start - hdr.length + hdr.length = (m.buf i).start from by omega]
    rw [show (m.buf i).stop - ((m.buf i).start - hdr.length) =
      hdr.length + ((m.buf i).stop - (m.buf i).start) from by omega]
    rw [List.take_append, List.take_of_length_le (by omega)]
    congr 1
    unfold Buf.unread
    congr 1
    omega
  generalize hU : (m.buf i).unread = U at *
  generalize hst : (m.buf i).start - hdr.length = st at *
  generalize hw : min (k + hdr.length) (room - out.length) = w at *
  have hRlen : (hdr ++ U).length = hdr.length + ((m.buf i).stop - (m.buf i).start) := by
    rw [List.length_append, hun]
  have hrd : st + w ≤ mem.length := by omega
  have hbytes : (mem.drop st).take w = (hdr ++ U).take w := by
    rw [← hmem', List.take_take]
    congr 1
    omega
  have hrest : (mem.drop (st + w)).take ((m.buf i).stop - (st + w)) = (hdr ++ U).drop w := by
    rw [← hmem', List.drop_take, List.drop_drop]
    congr 1
    omega
  have hemit : emit m i (room - out.length) lag = some ({ m with
          buf := upd m.buf i (if st + w = (m.buf i).stop then ⟨mem, maxHeader, maxHeader⟩
            else ⟨mem, st + w, (m.buf i).stop⟩)
          flushed := m.flushed + k
          lastFlush := upd m.lastFlush i (m.flushed + k)
          avail := if w ≠ k + hdr.length then k + hdr.length - w else m.avail
          cur := if w ≠ k + hdr.length then i else m.cur }, (hdr ++ U).take w) := by
    have e1 : ¬ (m.buf i).stop < (m.buf i).start := by omega
    have e2 : ¬ (m.buf i).start < maxHeader := by simp only [maxHeader]; omega
    simp only [emit, e1, if_false, hcode, Option.bind_eq_bind, Option.bind_some, e2, hst, hmem, hw,
      readAt_some hrd, hbytes]
  -- the unread bytes afterwards
  have hbuf : (if st + w = (m.buf i).stop then (⟨mem, maxHeader, maxHeader⟩ : Buf)
            else ⟨mem, st + w, (m.buf i).stop⟩).unread = (hdr ++ U).drop w := by
    by_cases hc : st + w = (m.buf i).stop
    · rw [if_pos hc, List.drop_eq_nil_of_le (by omega)]
      simp [Buf.unread]
    · rw [if_neg hc]
      exact hrest
  have hbytesLen : ((hdr ++ U).take w).length = w := by rw [List.length_take]; omega
  refine ⟨_, _, hemit, ⟨⟨?_, ?_, ?_⟩, ?_, ?_, rfl, List.prefix_append _ _, ?_, ?_, ?_⟩, ?_⟩
  · intro j
    by_cases hj : j = i
    · subst hj
      simp only [upd_same]
      split
      · simp only [Buf.Ok, maxHeader]; omega
      · simp only [Buf.Ok]; omega
    · simp only [upd_ne _ _ hj]; exact hi.ok j
  · intro j
    by_cases hj : j = i
    · subst hj
      by_cases hwt : w = k + hdr.length
      · simp only [upd_same, lo, hwt, ne_eq, not_true_eq_false, if_false, ha, ite_self]
        split
        · simp
        · simp only; omega
      · simp only [upd_same, lo, hwt, ne_eq, not_false_eq_true, if_true]
        rw [if_neg (by omega)]
        simp only; omega
    · have := hi.fits j
      rw [lo_of_zero ha] at this
      by_cases hwt : w = k + hdr.length
      · simp only [upd_ne _ _ hj, lo, hwt, ne_eq, not_true_eq_false, if_false, ha, ite_self]
        exact this
      · simp only [upd_ne _ _ hj, lo, hwt, ne_eq, not_false_eq_true, if_true, hj, if_false]
        exact this
  · intro j
    by_cases hj : j = i
    · subst hj
      left
      by_cases hwt : w = k + hdr.length
      · simp only [upd_same, lo, hwt, ne_eq, not_true_eq_false, if_false, ha, ite_self]
        split
        · simp [maxHeader]
        · simp only; omega
      · simp only [upd_same, lo, hwt, ne_eq, not_false_eq_true, if_true]
        rw [if_neg (by omega)]
        simp only; omega
    · have := hi.room j
      rw [lo_of_zero ha] at this
      by_cases hwt : w = k + hdr.length
      · simp only [upd_ne _ _ hj, lo, hwt, ne_eq, not_true_eq_false, if_false, ha, ite_self]
        exact this
      · simp only [upd_ne _ _ hj, lo, hwt, ne_eq, not_false_eq_true, if_true, hj, if_false]
        exact this
  · rw [List.length_append, hbytesLen]; omega
  · intro h
    rw [List.length_append, hbytesLen]
    by_cases hwt : w = k + hdr.length
    · simp only [hwt, ne_eq, not_true_eq_false, if_false] at h; exact absurd ha h
    · omega
  · rintro P pre ⟨⟨s, hr, hb, he, ho⟩, hdone⟩
    have hne : m.eof ≠ .done := by
      intro hd
      have := congrArg List.length (hdone hd i)
      rw [Mux.unread, hU, hun, List.length_nil] at this
      omega
    rw [ha, List.take_zero, List.append_nil] at hr
    -- the whole record
    have hrec : runAll s (hdr ++ U.take k) = some ⟨.none, s.eof, upd s.out i (s.out i ++ U.take k)⟩ := by
      obtain ⟨sb, se, so⟩ := s
      simp only at hb he
      subst hb he
      rw [runAll_append, hrun _ hne, Option.bind_some]
      obtain ⟨k', rfl⟩ : ∃ k', k = k' + 1 := ⟨k - 1, by omega⟩
      have := runAll_payload i m.eof hne (U.take (k' + 1)) (k' + 1) so (by rw [List.length_take]; omega)
      rw [norm_succ] at this
      rw [this, List.length_take, hun]
      rw [show k' + 1 - min (k' + 1) ((m.buf i).stop - (m.buf i).start) = 0 from by omega]
      rfl
    have hout' : ∀ j, upd s.out i (s.out i ++ U.take k) j ++
        (if j = i then U.drop k else m.unread j) = P j := by
      intro j
      have hoj := ho j
      rw [lo_of_zero ha, List.drop_zero] at hoj
      by_cases hj : j = i
      · subst hj
        rw [upd_same, if_pos rfl, List.append_assoc, List.take_append_drop, ← hoj, Mux.unread, hU]
      · rw [upd_ne _ _ hj, if_neg hj, hoj]
    have hdropk : (hdr ++ U).drop (k + hdr.length) = U.drop k := by
      rw [Nat.add_comm, ← List.drop_drop, List.drop_left]
    have htake : (hdr ++ U).take (k + hdr.length) = hdr ++ U.take k := by
      rw [Nat.add_comm, List.take_append, List.take_of_length_le (by omega), Nat.add_sub_cancel_left]
    refine ⟨⟨⟨.none, s.eof, upd s.out i (s.out i ++ U.take k)⟩, ?_, rfl, he, ?_⟩,
      fun hd => absurd hd hne⟩
    · by_cases hwt : w = k + hdr.length
      · simp only [hwt, ne_eq, not_true_eq_false, if_false, ha, List.take_zero, List.append_nil, htake]
        rw [← List.append_assoc, runAll_append, hr, Option.bind_some, hrec]
      · simp only [hwt, ne_eq, not_false_eq_true, if_true, Mux.unread, upd_same, hbuf]
        have : (hdr ++ U).take w ++ ((hdr ++ U).drop w).take (k + hdr.length - w) = hdr ++ U.take k := by
          rw [← List.take_add, ← htake]
          congr 1
          omega
        rw [← List.append_assoc, List.append_assoc (pre ++ out), this, runAll_append, hr,
          Option.bind_some, hrec]
    · intro j
      rw [← hout' j]
      congr 1
      by_cases hj : j = i
      · subst hj
        simp only [Mux.unread, upd_same, hbuf, if_true, List.drop_drop]
        rw [← hdropk]
        congr 1
        by_cases hwt : w = k + hdr.length
        · simp only [lo, hwt, ne_eq, not_true_eq_false, if_false, ha, ite_self]; omega
        · simp only [lo, hwt, ne_eq, not_false_eq_true, if_true]; omega
      · simp only [Mux.unread, upd_ne _ _ hj, hj, if_false]
        by_cases hwt : w = k + hdr.length
        · simp only [lo, hwt, ne_eq, not_true_eq_false, if_false, ha, ite_self, List.drop_zero]
        · simp only [lo, hwt, ne_eq, not_false_eq_true, if_true, hj, if_false, List.drop_zero]
  · rw [cost_other _ i, cost_other m i, List.length_append, hbytesLen]
    have hn : (!i) ≠ i := by cases i <;> decide
    have hbl : (if st + w = (m.buf i).stop then (⟨mem, maxHeader, maxHeader⟩ : Buf)
            else ⟨mem, st + w, (m.buf i).stop⟩).stop - (if st + w = (m.buf i).stop then (⟨mem, maxHeader, maxHeader⟩ : Buf)
            else ⟨mem, st + w, (m.buf i).stop⟩).start = (m.buf i).stop - (st + w) := by
      by_cases hc : st + w = (m.buf i).stop
      · rw [if_pos hc]; simp only; omega
      · rw [if_neg hc]
    by_cases hwt : w = k + hdr.length
    · simp only [costOf, lo, hwt, ne_eq, not_true_eq_false, if_false, ha, ite_self, upd_same, upd_ne _ _ hn]
      rw [hwt] at hbl
      rw [hbl]
      omega
    · simp only [costOf, lo, hwt, ne_eq, not_false_eq_true, if_true, ha, ite_self, upd_same, upd_ne _ _ hn, hn, if_false, hbl]
      omega
  · rw [price_other _ i, price_other m i, List.length_append, hbytesLen]
    have hsz := getCode_size hcode
    have hn : (!i) ≠ i := by cases i <;> decide
    have hbl : (if st + w = (m.buf i).stop then (⟨mem, maxHeader, maxHeader⟩ : Buf)
            else ⟨mem, st + w, (m.buf i).stop⟩).stop - (if st + w = (m.buf i).stop then (⟨mem, maxHeader, maxHeader⟩ : Buf)
            else ⟨mem, st + w, (m.buf i).stop⟩).start = (m.buf i).stop - (st + w) := by
      by_cases hc : st + w = (m.buf i).stop
      · rw [if_pos hc]; simp only; omega
      · rw [if_neg hc]
    by_cases hwt : w = k + hdr.length
    · simp only [priceOf, lo, hwt, ne_eq, not_true_eq_false, if_false, ha, ite_self, upd_same, upd_ne _ _ hn]
      rw [hwt] at hbl
      rw [hbl]
      refine price_step (emit_price hsz hk1 hkn (by omega) (by omega) ?_)
      clear hsz
      omega
    · simp only [priceOf, lo, hwt, ne_eq, not_false_eq_true, if_true, ha, ite_self, upd_same, upd_ne _ _ hn, hn, if_false, hbl]
      refine price_step (emit_price hsz hk1 hkn (by omega) rfl ?_)
      clear hsz
      omega
  · intro hlt h
    have := congrArg List.length h
    rw [hbytesLen, List.length_nil] at this
    omega

theorem chunkSize_pos (a : Nat) (l : Bool) : 0 < chunkSize a l := by
  unfold chunkSize; split_ifs <;> omega

theorem serPass_spec (mn mx room : Nat) : ∀ (is : List Bool) (m : Mux) (out : List UInt8) (any : Bool),
    Inv m → m.avail = 0 → out.length ≤ room →
    ∃ m' out' any', serPass mn mx room is m out any = some (m', out', any') ∧
      Tr room m out m' out' ∧
      (any' = true → any = true ∨ out.length = room ∨ out.length < out'.length) := by
  intro is
  induction is with
  | nil =>
    intro m out any hi ha hl
    exact ⟨m, out, any, rfl, Tr.refl hi hl (fun h => absurd ha h), Or.inl⟩
  | cons i is ih =>
    intro m out any hi ha hl
    rw [serPass]
    have hok := hi.ok i
    rw [if_neg (by have := hok.1; omega)]
    by_cases hc : (m.buf i).stop - (m.buf i).start ≥
        chunkSize (m.lastFlush i) (decide (mx > variance + m.lastFlush i)) ∧ m.lastFlush i ≤ mn + variance
    · rw [if_pos hc]
      have hp := chunkSize_pos (m.lastFlush i) (decide (mx > variance + m.lastFlush i))
      obtain ⟨m', bytes, e, htr, hb⟩ := emit_spec hi ha i (by omega) room
        (decide (mx > variance + m.lastFlush i)) out hl
      rw [e]
      have hprog : out.length = room ∨ out.length < (out ++ bytes).length := by
        rcases Nat.lt_or_ge out.length room with h | h
        · right
          have := List.length_pos_iff.mpr (hb h)
          rw [List.length_append]; omega
        · left; omega
      simp only
      by_cases hav : m'.avail ≠ 0
      · rw [if_pos hav]
        exact ⟨_, _, _, rfl, htr, fun _ => Or.inr hprog⟩
      · rw [if_neg hav]
        obtain ⟨m'', out'', any'', e2, htr2, -⟩ := ih m' (out ++ bytes) true htr.inv (by omega) htr.len
        refine ⟨_, _, _, e2, htr.trans htr2, fun _ => Or.inr ?_⟩
        have := htr2.ext.length_le
        omega
    · rw [if_neg hc]
      exact ih m out any hi ha hl

theorem serLoop_spec (room : Nat) : ∀ (fuel : Nat) (m : Mux) (out : List UInt8), Inv m →
    out.length ≤ room → (m.avail ≠ 0 → out.length = room) → room - out.length < fuel →
    ∃ m' out', serLoop room fuel m out = some (m', out') ∧ Tr room m out m' out' := by
  intro fuel
  induction fuel with
  | zero => intro m out _ _ _ h; omega
  | succ fuel ih =>
    intro m out hi hl hf hfu
    rw [serLoop]
    by_cases hlt : out.length < room
    · rw [if_pos hlt]
      obtain ⟨m', out', any', e, htr, hany⟩ := serPass_spec (min (m.lastFlush false) (m.lastFlush true))
        (max (m.lastFlush false) (m.lastFlush true)) room [false, true] m out false hi
        (by by_contra h; have := hf h; omega) hl
      rw [e]
      simp only
      cases any' with
      | false => exact ⟨m', out', rfl, htr⟩
      | true =>
        have := hany rfl
        simp only [Bool.false_eq_true, false_or] at this
        have hgt : out.length < out'.length := by omega
        obtain ⟨m'', out'', e2, htr2⟩ := ih m' out' htr.inv htr.len htr.full (by omega)
        exact ⟨m'', out'', by simpa using e2, htr.trans htr2⟩
    · rw [if_neg hlt]
      exact ⟨m, out, rfl, Tr.refl hi hl hf⟩

theorem serialize_spec {m : Mux} (hi : Inv m) (room : Nat) :
    ∃ m' out, serialize m room = some (m', out) ∧ Tr room m [] m' out := by
  unfold serialize
  by_cases ha : m.avail ≠ 0
  · rw [if_pos ha]
    obtain ⟨m1, out1, e1, htr1, -⟩ := leftover_spec hi room
    rw [e1]
    obtain ⟨m2, out2, e2, htr2⟩ := serLoop_spec room (room + 1) m1 out1 htr1.inv htr1.len htr1.full
      (by omega)
    exact ⟨m2, out2, e2, htr1.trans htr2⟩
  · rw [if_neg ha]
    exact serLoop_spec room (room + 1) m [] hi (Nat.zero_le _) (fun h => absurd h ha)
      (by simp)

theorem flushPass_spec (lf : Option Nat) (room : Nat) :
    ∀ (is : List Bool) (m : Mux) (out : List UInt8) (any : Bool),
    Inv m → m.avail = 0 → out.length ≤ room →
    ∃ m' out' any', flushPass lf room is m out any = some (m', out', any') ∧
      Tr room m out m' out' ∧
      (any' = true → any = true ∨ out.length < out'.length) ∧
      (any' = false → any = false ∧ (out.length < room → m' = m ∧ ∀ i ∈ is,
        due lf (m.lastFlush i) = true →
          (m.buf i).start = (m.buf i).stop)) := by
  intro is
  induction is with
  | nil =>
    intro m out any hi ha hl
    exact ⟨m, out, any, rfl, Tr.refl hi hl (fun h => absurd ha h), Or.inl, fun h => ⟨h, fun _ => ⟨rfl, by simp⟩⟩⟩
  | cons i is ih =>
    intro m out any hi ha hl
    rw [flushPass]
    by_cases hv : due lf (m.lastFlush i) = true
    · rw [if_pos hv]
      by_cases hp : (m.buf i).start ≠ (m.buf i).stop
      · rw [emitPending, if_pos hp]
        obtain ⟨m', bytes, e, htr, hb⟩ := emit_spec hi ha i hp room true out hl
        rw [e]
        simp only
        by_cases hav : m'.avail ≠ 0
        · rw [if_pos hav]
          refine ⟨_, _, _, rfl, htr, ?_, ?_⟩
          · intro h
            rcases Bool.or_eq_true_iff.mp h with h | h
            · exact Or.inl h
            · right
              have := List.length_pos_iff.mpr (of_decide_eq_true h)
              rw [List.length_append]; omega
          · intro h
            rw [Bool.or_eq_false_iff] at h
            refine ⟨h.1, fun hlt => absurd (hb hlt) ?_⟩
            simpa using h.2
        · rw [if_neg hav]
          obtain ⟨m'', out'', any'', e2, htr2, h1, h2⟩ := ih m' (out ++ bytes) (any || decide (bytes ≠ []))
            htr.inv (by omega) htr.len
          have hle := htr2.ext.length_le
          refine ⟨_, _, _, e2, htr.trans htr2, ?_, ?_⟩
          · intro h
            rcases h1 h with h | h
            · rcases Bool.or_eq_true_iff.mp h with h | h
              · exact Or.inl h
              · right
                have := List.length_pos_iff.mpr (of_decide_eq_true h)
                rw [List.length_append] at hle; omega
            · right
              rw [List.length_append] at h; omega
          · intro h
            have := (h2 h).1
            rw [Bool.or_eq_false_iff] at this
            refine ⟨this.1, fun hlt => absurd (hb hlt) ?_⟩
            simpa using this.2
      · rw [emitPending, if_neg hp]
        simp only [ne_eq, not_true_eq_false, decide_false, Bool.or_false, List.append_nil, ha, if_false]
        obtain ⟨m'', out'', any'', e2, htr2, h1, h2⟩ := ih m out any hi ha hl
        refine ⟨_, _, _, e2, htr2, h1, fun h => ⟨(h2 h).1, fun hlt => ⟨((h2 h).2 hlt).1, ?_⟩⟩⟩
        intro j hj
        rcases List.mem_cons.mp hj with rfl | hj
        · intro _; exact Decidable.not_not.mp hp
        · exact ((h2 h).2 hlt).2 j hj
    · rw [if_neg hv]
      obtain ⟨m'', out'', any'', e2, htr2, h1, h2⟩ := ih m out any hi ha hl
      refine ⟨_, _, _, e2, htr2, h1, fun h => ⟨(h2 h).1, fun hlt => ⟨((h2 h).2 hlt).1, ?_⟩⟩⟩
      intro j hj
      rcases List.mem_cons.mp hj with rfl | hj
      · intro hc; exact absurd hc hv
      · exact ((h2 h).2 hlt).2 j hj

theorem flushLoop_spec (room : Nat) : ∀ (fuel : Nat) (m : Mux) (out : List UInt8), Inv m →
    out.length ≤ room → (m.avail ≠ 0 → out.length = room) → room - out.length < fuel →
    ∃ m' out', flushLoop room fuel m out = some (m', out') ∧ Tr room m out m' out' ∧
      (out'.length < room → ∀ i, (m'.buf i).start = (m'.buf i).stop) := by
  intro fuel
  induction fuel with
  | zero => intro m out _ _ _ h; omega
  | succ fuel ih =>
    intro m out hi hl hf hfu
    rw [flushLoop]
    by_cases hlt : out.length < room
    · rw [if_pos hlt]
      obtain ⟨m', out', any', e, htr, hany, hno⟩ := flushPass_spec (minPending m) room [false, true] m out
        false hi (by by_contra h; have := hf h; omega) hl
      rw [e]
      simp only
      cases any' with
      | false =>
        refine ⟨m', out', rfl, htr, ?_⟩
        intro _
        obtain ⟨-, h⟩ := hno rfl
        obtain ⟨rfl, hall⟩ := h hlt
        have h0 := hall false (by simp)
        have h1 := hall true (by simp)
        unfold minPending due at h0 h1
        by_cases p0 : (m'.buf false).start = (m'.buf false).stop <;>
        by_cases p1 : (m'.buf true).start = (m'.buf true).stop
        · intro i; cases i <;> assumption
        · simp [p0, p1] at h1
        · simp [p0, p1] at h0
        · exfalso
          by_cases hq : m'.lastFlush true < m'.lastFlush false
          · simp [p0, p1, hq] at h1
          · simp [p0, p1, hq] at h0
      | true =>
        have := hany rfl
        simp only [Bool.false_eq_true, false_or] at this
        obtain ⟨m'', out'', e2, htr2, hdone⟩ := ih m' out' htr.inv htr.len htr.full (by omega)
        exact ⟨m'', out'', by simpa using e2, htr.trans htr2, hdone⟩
    · rw [if_neg hlt]
      exact ⟨m, out, rfl, Tr.refl hi hl hf, fun h => absurd h hlt⟩

theorem flushInternal_spec {m : Mux} (hi : Inv m) (room : Nat) :
    ∃ m' out, flushInternal m room = some (m', out) ∧ Tr room m [] m' out ∧
      (out.length < room → ∀ i, (m'.buf i).start = (m'.buf i).stop) := by
  unfold flushInternal
  by_cases ha : m.avail ≠ 0
  · rw [if_pos ha]
    obtain ⟨m1, out1, e1, htr1, -⟩ := leftover_spec hi room
    rw [e1]
    obtain ⟨m2, out2, e2, htr2, hd⟩ := flushLoop_spec room (room + 1) m1 out1 htr1.inv htr1.len htr1.full
      (by omega)
    exact ⟨m2, out2, e2, htr1.trans htr2, hd⟩
  · rw [if_neg ha]
    exact flushLoop_spec room (room + 1) m [] hi (Nat.zero_le _) (fun h => absurd h ha)
      (by simp)

theorem runAll_eofRest (e : Eof) (n : Nat) (o : Bool → List UInt8) :
    runAll ⟨.none, e, o⟩ ((eofRest e).take n) = some ⟨.none, eofAdvance e n, o⟩ := by
  rcases n with _ | _ | _ | n <;> cases e <;>
    simp [eofRest, eofAdvance, runAll, step, isMark, eofStep]
  cases n <;> rfl

theorem eofRest_advance (e : Eof) (n : Nat) (h : n ≤ (eofRest e).length) :
    (eofRest (eofAdvance e n)).length + n = (eofRest e).length := by
  rcases n with _ | _ | _ | _ | n <;> cases e <;> simp [eofRest, eofAdvance] at h ⊢

/-- What `serialize_close` guarantees. -/
theorem close_spec {m : Mux} (hi : Inv m) (room : Nat) :
    ∃ m' out, serializeClose m room = some (m', out) ∧ Inv m' ∧ out.length ≤ room ∧
      (∀ P pre, Rel m P pre → Rel m' P (pre ++ out)) ∧
      (m.eof ≠ .done → out.length < room → m'.eof = .done) ∧
      cost m' + (eofRest m'.eof).length + out.length ≤ cost m + (eofRest m.eof).length := by
  unfold serializeClose
  by_cases hd : m.eof = .done
  · rw [if_pos hd]
    exact ⟨m, [], rfl, hi, Nat.zero_le _, fun P pre h => by rwa [List.append_nil], fun h => absurd hd h,
      by simp⟩
  rw [if_neg hd]
  obtain ⟨m', out, e, htr, hflush⟩ := flushInternal_spec hi room
  rw [e]
  have htl : ((eofRest m'.eof).take (min (eofRest m'.eof).length (room - out.length))).length =
      min (eofRest m'.eof).length (room - out.length) := by
    rw [List.length_take]; omega
  have hl := htr.len
  refine ⟨_, _, rfl, ⟨htr.inv.ok, htr.inv.fits, htr.inv.room⟩, ?_, ?_, ?_, ?_⟩
  · rw [List.length_append, htl]; omega
  · intro P pre hrel
    have hrel' := htr.rel P pre (by rwa [List.append_nil])
    obtain ⟨⟨s, hrun, hb, he, ho⟩, hdn⟩ := hrel'
    rcases Nat.lt_or_ge out.length room with hlt | hge
    · have hav : m'.avail = 0 := by by_contra h; have := htr.full h; omega
      have hempty : ∀ i, m'.unread i = [] := by
        intro i
        have := hflush hlt i
        simp [Mux.unread, Buf.unread, this]
      obtain ⟨sb, se, so⟩ := s
      simp only at hb he ho
      subst hb he
      refine ⟨⟨⟨.none, eofAdvance m'.eof (min (eofRest m'.eof).length (room - out.length)), so⟩, ?_, rfl,
        rfl, ?_⟩, fun _ => hempty⟩
      · rw [hav, List.take_zero, List.append_nil] at hrun
        simp only [hav, List.take_zero, List.append_nil]
        rw [← List.append_assoc, runAll_append, hrun, Option.bind_some, runAll_eofRest]
      · exact ho
    · have h0 : min (eofRest m'.eof).length (room - out.length) = 0 := by omega
      simp only [h0, eofAdvance, List.take_zero, List.append_nil]
      exact ⟨⟨s, hrun, hb, he, ho⟩, hdn⟩
  · intro _ hlt
    rw [List.length_append, htl] at hlt
    have hn : min (eofRest m'.eof).length (room - out.length) = (eofRest m'.eof).length := by omega
    simp only [hn]
    cases m'.eof <;> rfl
  · have h1 := htr.cost
    rw [List.length_append, htl]
    rw [List.length_nil] at h1
    have h2 := eofRest_advance m'.eof (min (eofRest m'.eof).length (room - out.length)) (by omega)
    have h3 : cost { m' with eof := eofAdvance m'.eof (min (eofRest m'.eof).length (room - out.length)) } =
        cost m' := rfl
    simp only [h3]
    rw [htr.eof] at *
    omega

end Divans.Mux
