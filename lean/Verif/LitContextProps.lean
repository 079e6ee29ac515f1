import Verif.PipeProps

/-!
# C48: the context a literal byte is predicted from

The brotli format (RFC 7932, section 7.1) defines a context from the last two bytes of output.  The
context map turns it, with the block type, into the context the literal coder uses.
-/

namespace Divans.Lit
open Divans.Cdf Divans.Adaptive

/-! ## Specification: RFC 7932, section 7.1, in words -/

/-- Bytes as signed numbers, by size. -/
def signClass (b : Nat) : Nat :=
  if b = 0 then 0 else if b < 16 then 1 else if b < 64 then 2 else if b < 128 then 3
  else if b < 192 then 4 else if b < 240 then 5 else if b < 255 then 6 else 7

/-- The last byte as part of UTF-8 text. -/
def textClass (b : Nat) : Nat :=
  if b = 9 ∨ b = 10 ∨ b = 13 then 4          -- tab, line feed, carriage return
  else if b < 32 ∨ b = 127 then 0            -- control characters
  else if b = 32 then 8                      -- space
  else if b = 34 ∨ b = 39 then 16            -- quotes
  else if b = 37 then 20                     -- %
  else if b = 40 ∨ b = 60 ∨ b = 91 ∨ b = 123 then 24    -- ( < [ {
  else if b = 41 ∨ b = 62 ∨ b = 93 ∨ b = 125 then 28    -- ) > ] }
  else if b = 44 ∨ b = 58 ∨ b = 59 then 32   -- , : ;
  else if b = 46 then 36                     -- .
  else if b = 61 then 40                     -- =
  else if 48 ≤ b ∧ b ≤ 57 then 44            -- digits
  else if b ∈ [65, 69, 73, 79, 85] then 48   -- A E I O U
  else if 65 ≤ b ∧ b ≤ 90 then 52            -- other capital letters
  else if b ∈ [97, 101, 105, 111, 117] then 56          -- a e i o u
  else if 97 ≤ b ∧ b ≤ 122 then 60           -- other small letters
  else if b < 128 then 12                    -- other punctuation
  else if b < 192 then b % 2                 -- continuation of a character
  else 2 + b % 2                             -- beginning of one

/-- The byte before it. -/
def textClass2 (b : Nat) : Nat :=
  if b ≤ 32 ∨ b = 127 then 0                 -- control characters and space
  else if 48 ≤ b ∧ b ≤ 57 ∨ 65 ≤ b ∧ b ≤ 90 then 2      -- digits and capital letters
  else if 97 ≤ b ∧ b ≤ 122 then 3            -- small letters
  else if b < 128 then 1                     -- punctuation
  else if b < 224 then 0
  else 2                                     -- beginning of a character of three or four bytes

/-- The context of RFC 7932 for the last byte `p1` and the byte before it `p2`.  Modes: 0 is LSB6,
1 is MSB6, 2 is UTF8, 3 is Signed. -/
def rfcContext (mode p1 p2 : Nat) : Nat :=
  if mode = 0 then p1 % 64
  else if mode = 1 then p1 / 4
  else if mode = 2 then textClass p1 ||| textClass2 p2
  else 8 * signClass p1 + signClass p2

/-! ## The tables -/

theorem signed_table : ∀ b < 256, signedLookup[b]? = some (signClass b) := by decide +kernel
theorem utf8_table : ∀ b < 256, utf8Lookup[b]? = some (textClass b) := by decide +kernel
theorem utf8_table2 : ∀ b < 256, utf8Lookup[256 + b]? = some (textClass2 b) := by decide +kernel

theorem or_signed : ∀ a < 8, ∀ b < 8, (a <<< 3) ||| b = 8 * a + b := by decide +kernel

theorem luts {mode p1 p2 : Nat} (hm : mode ≤ 3) (h1 : p1 < 256) (h2 : p2 < 256) :
    ∃ a b, lut0 mode p1 = some a ∧ lut1 mode p2 = some b ∧ a ||| b = rfcContext mode p1 p2 := by
  have hs : ∀ b < 256, signClass b < 8 := by decide +kernel
  have hcase : mode = 0 ∨ mode = 1 ∨ mode = 2 ∨ mode = 3 := by omega
  rcases hcase with rfl | rfl | rfl | rfl
  · refine ⟨p1 &&& 0x3f, 0, rfl, rfl, ?_⟩
    rw [Nat.or_zero]
    exact Nat.and_two_pow_sub_one_eq_mod p1 6
  · refine ⟨p1 >>> 2, 0, rfl, rfl, ?_⟩
    rw [Nat.or_zero]
    exact Nat.shiftRight_eq_div_pow p1 2
  · exact ⟨_, _, utf8_table p1 h1, utf8_table2 p2 h2, rfl⟩
  · refine ⟨signClass p1 <<< 3, signClass p2, ?_, signed_table p2 h2, ?_⟩
    · simp only [lut0, if_true, signed_table p1 h1, Option.map_some]
    · exact or_signed _ (hs p1 h1) _ (hs p2 h2)

/-! ## The eight bytes -/

theorem pack8_lt (bs : List UInt8) : pack8 bs < 256 ^ bs.length := by
  induction bs with
  | nil => simp [pack8]
  | cons b t ih =>
    have hb := b.toNat_lt
    have e : b.toNat ||| (pack8 t <<< 8) = b.toNat + 256 * pack8 t := by
      rw [Nat.or_comm, ← Nat.shiftLeft_add_eq_or_of_lt (b := b.toNat) (i := 8) (by omega),
        Nat.shiftLeft_eq]
      omega
    rw [pack8, e, List.length_cons, Nat.pow_succ]
    omega

theorem pack8_cons (b : UInt8) (t : List UInt8) : pack8 (b :: t) = b.toNat + 256 * pack8 t := by
  have hb := b.toNat_lt
  rw [pack8, Nat.or_comm, ← Nat.shiftLeft_add_eq_or_of_lt (b := b.toNat) (i := 8) (by omega),
    Nat.shiftLeft_eq]
  omega

/-- The byte at position `i` of the packed bytes. -/
theorem pack8_get (bs : List UInt8) : ∀ (i : Nat),
    (pack8 bs >>> (8 * i)) &&& 0xff = (bs.getD i 0).toNat := by
  induction bs with
  | nil => intro i; simp [pack8]
  | cons b t ih =>
    intro i
    have hb := b.toNat_lt
    rw [pack8_cons]
    cases i with
    | zero =>
      rw [Nat.mul_zero, Nat.shiftRight_zero, show (0xff : Nat) = 2 ^ 8 - 1 from rfl,
        Nat.and_two_pow_sub_one_eq_mod]
      simp only [List.getD_cons_zero]
      omega
    | succ i =>
      rw [List.getD_cons_succ, ← ih i, show 8 * (i + 1) = 8 + 8 * i by omega, Nat.shiftRight_add]
      congr 2
      rw [Nat.shiftRight_eq_div_pow]
      omega

/-- A byte is pushed: the oldest of the eight is dropped. -/
theorem pack8_push {b0 : UInt8} {t : List UInt8} (ht : t.length = 7) (b : UInt8) :
    (pack8 (b0 :: t) >>> 8) ||| (b.toNat <<< 0x38) = pack8 (t ++ [b]) := by
  have h0 := b0.toNat_lt
  have e1 : pack8 (b0 :: t) >>> 8 = pack8 t := by
    rw [pack8_cons, Nat.shiftRight_eq_div_pow]
    omega
  have hlt : pack8 t < 2 ^ 0x38 := by
    have := pack8_lt t
    rw [ht] at this
    exact this
  rw [e1, Nat.or_comm, ← Nat.shiftLeft_add_eq_or_of_lt hlt, Nat.shiftLeft_eq]
  have key : ∀ (u : List UInt8), pack8 (u ++ [b]) = b.toNat * 256 ^ u.length + pack8 u := by
    intro u
    induction u with
    | nil => simp [pack8]
    | cons x u ih =>
      rw [List.cons_append, pack8_cons, ih, pack8_cons, List.length_cons, Nat.pow_succ]
      rw [Nat.mul_add, ← Nat.mul_assoc, ← Nat.mul_assoc]
      rw [show 256 * b.toNat * 256 ^ u.length = b.toNat * 256 ^ u.length * 256 by
        rw [Nat.mul_comm 256 b.toNat, Nat.mul_assoc, Nat.mul_assoc, Nat.mul_comm 256]]
      omega
  rw [key t, ht, show (256 : Nat) ^ 7 = 2 ^ 0x38 from rfl]

/-- After any bytes of a literal the eight bytes are the last eight. -/
theorem pushed_last8 (d : List UInt8) : ∀ (l : Lbk) (c : List UInt8), c.length = 8 → l.last8 = pack8 c →
    (d.foldl Lbk.pushByte l).last8 = pack8 ((c ++ d).drop d.length) := by
  induction d with
  | nil => intro l c _ h; simpa using h
  | cons b d ih =>
    intro l c hc h
    obtain ⟨b0, t, rfl⟩ : ∃ b0 t, c = b0 :: t := by
      cases c with
      | nil => simp at hc
      | cons x t => exact ⟨x, t, rfl⟩
    have ht : t.length = 7 := by simpa using hc
    rw [List.foldl_cons, ih (l.pushByte b) (t ++ [b]) (by simp [ht])]
    · simp
    · rw [Lbk.pushByte, h]
      exact pack8_push ht b

theorem pushed_rest (d : List UInt8) : ∀ (l : Lbk), (d.foldl Lbk.pushByte l).mode = l.mode ∧
    (d.foldl Lbk.pushByte l).btype = l.btype ∧ (d.foldl Lbk.pushByte l).ctxMap = l.ctxMap := by
  induction d with
  | nil => intro l; exact ⟨rfl, rfl, rfl⟩
  | cons b d ih => intro l; exact ih (l.pushByte b)

/-- The context from the eight bytes. -/
theorem context_of_bytes {l : Lbk} (h : l.Ok) {c : List UInt8} (hc : l.last8 = pack8 c) :
    l.context = (l.ctxMap[64 * l.btype.toNat +
      rfcContext l.mode (c.getD 7 0).toNat (c.getD 6 0).toNat]?).map UInt8.toNat := by
  obtain ⟨a, b, h1, h2, h3⟩ := luts h.mode (c.getD 7 0).toNat_lt (c.getD 6 0).toNat_lt
  unfold Lbk.context
  rw [hc, show 0x38 = 8 * 7 from rfl, show 0x30 = 8 * 6 from rfl, pack8_get, pack8_get, h1, h2]
  simp only [Option.bind_some]
  rw [h3, Nat.shiftLeft_eq, Nat.add_comm, Nat.mul_comm l.btype.toNat]

/-! ## C48 -/

/-- The byte `k` places before the end: `k = 1` is the last one; 0 before the beginning. -/
def back (k : Nat) (H : List UInt8) : Nat := (H.reverse.getD (k - 1) 0).toNat

theorem back_eq {k : Nat} {H : List UInt8} (h1 : 1 ≤ k) (h2 : k ≤ H.length) :
    back k H = (H.getD (H.length - k) 0).toNat := by
  unfold back
  simp only [List.getD_eq_getElem?_getD]
  rw [List.getElem?_reverse (by omega), show H.length - 1 - (k - 1) = H.length - k by omega]

theorem back_zeros {k n : Nat} {H : List UInt8} : back k (List.replicate n 0 ++ H) = back k H := by
  unfold back
  simp only [List.getD_eq_getElem?_getD, List.reverse_append, List.reverse_replicate]
  by_cases h : k - 1 < H.reverse.length
  · rw [List.getElem?_append_left h]
  · rw [List.getElem?_append_right (by omega), List.getElem?_eq_none (l := H.reverse) (by omega)]
    by_cases h2 : k - 1 - H.reverse.length < n
    · rw [List.getElem?_replicate, if_pos h2]; rfl
    · rw [List.getElem?_replicate, if_neg h2]

/-- Let `H` be everything decoded before a literal (after the zeros the ring starts
with), and `d` the bytes of the literal before the next one.  The context of the next byte is the entry of the
context map that the brotli format selects from the block type and the last two bytes of `H ++ d`, except
possibly for the first two bytes of a literal that begins at the first eight positions of the ring. -/
theorem context_step {L : Nat} {H d : List UInt8} {l : Lbk} (h : l.Ok)
    (hl : l.last8 = pack8 (Recode.contextOf L H)) (h8 : 8 ≤ H.length)
    (hd : 8 ≤ H.length % L ∨ 2 ≤ d.length) :
    (d.foldl Lbk.pushByte l).context =
      (l.ctxMap[64 * l.btype.toNat + rfcContext l.mode (back 1 (H ++ d)) (back 2 (H ++ d))]?).map
        UInt8.toNat := by
  have hc : (Recode.contextOf L H).length = 8 := by
    unfold Recode.contextOf
    split_ifs
    · simp; omega
    · simp; omega
  have h1 := pushed_last8 d l _ hc hl
  have hok : (d.foldl Lbk.pushByte l).Ok := pushAll_ok d l h
  obtain ⟨e1, e2, e3⟩ := pushed_rest d l
  rw [context_of_bytes hok h1, e1, e2, e3]
  have key : ∀ k, k ≤ 1 → ((Recode.contextOf L H ++ d).drop d.length).getD (7 - k) 0 =
      (H ++ d).getD ((H ++ d).length - (k + 1)) 0 := by
    intro k hk
    simp only [List.getD_eq_getElem?_getD, List.getElem?_drop, List.length_append]
    by_cases hdl : k < d.length
    · rw [List.getElem?_append_right (by rw [hc]; omega), List.getElem?_append_right (by omega), hc]
      congr 2
      omega
    · rw [List.getElem?_append_left (by rw [hc]; omega), List.getElem?_append_left (by omega)]
      have h8' : ¬ H.length % L < 8 := by omega
      rw [Recode.contextOf, if_neg h8', List.getElem?_drop]
      congr 2
      omega
  have k0 := key 0 (by omega)
  have k1 := key 1 (by omega)
  simp only [Nat.sub_zero] at k0
  rw [k0, show (6 : Nat) = 7 - 1 from rfl, k1, back_eq (by omega) (by simp; omega),
    back_eq (by omega) (by simp; omega)]

/-- C48 is false at the start of the ring: after 24 bytes `0, 1, 2, ..., 23` in a ring of 24 bytes the
context of the next byte, in mode LSB6, is 16 and not 23. -/
theorem literal_context_reversed :
    let H := (List.range 24).map UInt8.ofNat
    let l : Lbk := { Lbk.init with last8 := pack8 (Recode.contextOf 24 H), ctxMap := (List.range 16384).map UInt8.ofNat }
    l.context = some 16 ∧ rfcContext l.mode (back 1 H) (back 2 H) = 23 := by
  intro H l
  constructor
  · have hl : l.last8 = pack8 (Recode.contextOf 24 H) := rfl
    have hok : l.Ok := ⟨by simp [l], init_ok.mix, init_ok.mode, init_ok.adaptLen, init_ok.speeds⟩
    rw [context_of_bytes hok hl]
    have e : rfcContext l.mode ((Recode.contextOf 24 H).getD 7 0).toNat
      ((Recode.contextOf 24 H).getD 6 0).toNat = 16 := by decide +kernel
    have e2 : 64 * l.btype.toNat = 0 := by decide
    rw [e, e2, Nat.zero_add]
    simp only [l, List.getElem?_map]
    rw [List.getElem?_range (by decide)]
    rfl
  · decide +kernel

/-- The byte a stride points to: mixing values 4 to 7 mean 1 to 4 bytes back, 8 and more mean 8 bytes back,
and the others 1 byte back. -/
theorem stride_byte {l : Lbk} {c : List UInt8} (hc : c.length = 8) (hl : l.last8 = pack8 c) (mm : Nat)
    (hm : mm < 16) : strideByte l.last8 mm =
      back (if mm < 4 then 1 else if mm < 8 then mm - 3 else 8) c := by
  have e : ∀ mm < 16, (if mm < 4 then 0 else (min 7 (mm ^^^ 4)) <<< 3) =
      8 * ((if mm < 4 then 1 else if mm < 8 then mm - 3 else 8) - 1) ∧
      1 ≤ (if mm < 4 then 1 else if mm < 8 then mm - 3 else 8) ∧
      (if mm < 4 then 1 else if mm < 8 then mm - 3 else 8) ≤ 8 := by decide +kernel
  obtain ⟨e1, e2, e3⟩ := e mm hm
  unfold strideByte
  simp only
  rw [e1]
  generalize (if mm < 4 then 1 else if mm < 8 then mm - 3 else 8) = k at e2 e3 ⊢
  rw [hl, show 0x38 - 8 * (k - 1) = 8 * (8 - k) by omega, pack8_get, back_eq e2 (by omega), hc]

/-! ## The compressor -/

/-- A list of commands is sent; what goes out is left aside. -/
def sendMany (o : Codec.Opts) (dw : Nat → Nat → Nat → List UInt8) (room fuel : Nat) :
    List Pipe.Item → Pipe.Snd → Option (Codec.Res Pipe.Snd)
  | [], s => some (.ok s)
  | x :: xs, s =>
    match Pipe.Snd.item o dw room fuel s x with
    | some (.ok (_, _, s')) => sendMany o dw room fuel xs s'
    | some .fail => some .fail
    | some .panic => some .panic
    | none => none

/-- The literal block type after a command. -/
def typeAfter (t : UInt8) : Pipe.Item → UInt8
  | .bswitch .lit u _ => u
  | _ => t

/-- The prediction mode after a command. -/
def modeAfter (m : Nat) : Pipe.Item → Nat
  | .pm p => p.mode
  | _ => m

/-- The literal block type after some commands: that of the last switch. -/
def blockType (xs : List Pipe.Item) : UInt8 := xs.foldl typeAfter 0

/-- The prediction mode after some commands: that of the last prediction mode command. -/
def predMode (xs : List Pipe.Item) : Nat := xs.foldl modeAfter 0

theorem populate_lbk {room fuel : Nat} {s s' : Pipe.Snd} {c : Recode.Cmd}
    (h : Pipe.Snd.populate room fuel s c = some (.ok s')) :
    s'.lbk.btype = s.lbk.btype ∧ s'.lbk.mode = s.lbk.mode := by
  unfold Pipe.Snd.populate at h
  obtain ⟨r, -, h⟩ := Option.map_eq_some_iff.1 h
  cases r with
  | fail => cases h
  | panic => cases h
  | ok ring =>
    simp only [Codec.Res.bind] at h
    cases h8 : Recode.last8 ring with
    | none => rw [h8] at h; cases h
    | some b =>
      rw [h8] at h
      simp only [Codec.Res.ok.injEq] at h
      subst h
      exact ⟨rfl, rfl⟩

theorem sendBytes_lbk : ∀ (data : List UInt8) (l l' : Lbk) (tr : Trace Key Bool),
    sendBytes l data = some (tr, l') → l' = data.foldl Lbk.pushByte l := by
  intro data
  induction data with
  | nil => intro l l' tr h; simp only [sendBytes, Option.some.injEq, Prod.mk.injEq] at h; exact h.2.symm
  | cons b t ih =>
    intro l l' tr h
    simp only [sendBytes] at h
    obtain ⟨c1, -, h⟩ := Option.bind_eq_some_iff.1 h
    obtain ⟨c2, -, h⟩ := Option.bind_eq_some_iff.1 h
    obtain ⟨r, hr, h⟩ := Option.map_eq_some_iff.1 h
    simp only [Prod.mk.injEq] at h
    rw [← h.2]
    exact ih (l.pushByte b) r.2 r.1 hr

theorem obsPm_rest {l l' : Lbk} {o : Codec.Opts} {p : Codec.PmIn} {w : List Speed} {q : Codec.Pm}
    (h : l.obsPm (Codec.pmGot o p w q) = .ok l') : l'.btype = l.btype ∧ l'.mode = p.mode := by
  unfold Lbk.obsPm at h
  by_cases h3 : 3 < (Codec.pmGot o p w q).mode
  · rw [if_pos h3] at h; cases h
  · rw [if_neg h3] at h
    cases hm : (Codec.pmGot o p w q).speeds.mapM speedOf with
    | none => rw [hm] at h; cases h
    | some a =>
      rw [hm] at h
      simp only at h
      split at h
      · simp only [Codec.Res.ok.injEq] at h
        subst h
        exact ⟨rfl, rfl⟩
      · cases h

theorem item_lbk {o : Codec.Opts} {dw : Nat → Nat → Nat → List UInt8} {room fuel : Nat} {x : Pipe.Item}
    {s s' : Pipe.Snd} {tc : Trace Codec.Key Unit} {tl : Trace Key Bool} {ys : List Codec.Sym}
    (henc : Codec.encCmd o x.head fuel s.core = some (.ok (ys, x.head.after o s.core, x.head.result o s.core.pm)))
    (h : Pipe.Snd.item o dw room fuel s x = some (.ok (tc, tl, s'))) :
    s'.lbk.btype = typeAfter s.lbk.btype x ∧ s'.lbk.mode = modeAfter s.lbk.mode x := by
  unfold Pipe.Snd.item at h
  rw [henc] at h
  simp only at h
  obtain ⟨r, hr, h⟩ := Option.map_eq_some_iff.1 h
  cases r with
  | fail => cases h
  | panic => cases h
  | ok q =>
    simp only [Codec.Res.bind, Codec.Res.ok.injEq, Prod.mk.injEq] at h
    obtain ⟨-, -, rfl⟩ := h
    have hpop : ∀ (s1 : Pipe.Snd) (c : Recode.Cmd) (tr : Trace Key Bool),
        (Pipe.Snd.populate room fuel s1 c).map (fun r => r.bind fun s' => .ok (tr, s')) = some (.ok q) →
        q.2.lbk.btype = s1.lbk.btype ∧ q.2.lbk.mode = s1.lbk.mode := by
      intro s1 c tr hh
      obtain ⟨r2, hr2, hh⟩ := Option.map_eq_some_iff.1 hh
      cases r2 with
      | fail => cases hh
      | panic => cases hh
      | ok s2 =>
        simp only [Codec.Res.bind, Codec.Res.ok.injEq] at hh
        subst hh
        exact populate_lbk hr2
    cases x with
    | copy d n => have := hpop ⟨_, s.lbk, s.ring⟩ _ _ hr; exact this
    | dict z i t => have := hpop ⟨_, s.lbk, s.ring⟩ _ _ hr; exact this
    | lit data e =>
      simp only [Pipe.Snd.effect] at hr
      cases hsb : sendBytes s.lbk data with
      | none => rw [hsb] at hr; cases hr
      | some w =>
        obtain ⟨tr, l⟩ := w
        rw [hsb] at hr
        have := hpop _ _ _ hr
        have hl := sendBytes_lbk _ _ _ _ hsb
        obtain ⟨e1, e2, -⟩ := pushed_rest data s.lbk
        simp only at this
        rw [hl, e1, e2] at this
        exact this
    | bswitch k t st =>
      cases k <;> simp only [Pipe.Snd.effect, Option.some.injEq, Codec.Res.ok.injEq] at hr <;> subst hr <;>
        exact ⟨rfl, rfl⟩
    | pm p =>
      simp only [Pipe.Snd.effect, Pipe.Item.head, Codec.Head.result, Option.some.injEq] at hr
      cases ho : s.lbk.obsPm (Codec.pmGot o p ((Codec.wantedSpeeds o p).getD []) s.core.pm) with
      | fail => rw [ho] at hr; cases hr
      | panic => rw [ho] at hr; cases hr
      | ok l =>
        rw [ho] at hr
        simp only [Codec.Res.bind, Codec.Res.ok.injEq] at hr
        subst hr
        exact obsPm_rest ho

theorem sendMany_spec {o : Codec.Opts} {dw : Nat → Nat → Nat → List UInt8} {L : Nat} (hL : 8 ≤ L) {room : Nat}
    (hroom : 0 < room) : ∀ (xs : List Pipe.Item), (∀ x ∈ xs, x.Valid o dw L) → ∀ {H : List UInt8} {s : Pipe.Snd},
    Pipe.SndOk L H s →
    ∃ fuel0 s', (∀ fuel, fuel0 ≤ fuel → sendMany o dw room fuel xs s = some (.ok s')) ∧
      Pipe.SndOk L (Recode.expand H (xs.map (Pipe.Item.ringCmd dw))) s' ∧
      s'.lbk.btype = xs.foldl typeAfter s.lbk.btype ∧
      s'.lbk.mode = xs.foldl modeAfter s.lbk.mode := by
  intro xs
  induction xs with
  | nil => intro _ H s h; exact ⟨0, s, fun _ _ => rfl, h, rfl, rfl⟩
  | cons x xs ih =>
    intro hv H s h
    obtain ⟨f1, ys, tl, s1, h1, -, -, h4, -⟩ := Pipe.item_spec hL hroom (hv x (by simp)) h
    obtain ⟨ys', henc, -, -⟩ := Codec.command_round_trip h.core (hv x (by simp)).head
    obtain ⟨f2, s2, g1, g2, g3, g4⟩ := ih (fun y hy => hv y (by simp [hy])) h4
    obtain ⟨b1, b2⟩ := item_lbk (henc (max f1 ys'.length) (by omega)) (h1 (max f1 ys'.length) (by omega))
    refine ⟨max f1 f2, s2, ?_, g2, ?_, ?_⟩
    · intro fuel hf
      rw [sendMany, h1 fuel (by omega)]
      exact g1 fuel (by omega)
    · rw [g3, b1]
      rfl
    · rw [g4, b2]
      rfl

/-- **C48 (partial).**  Compress any valid commands `pre`, which stand for the data `original dw pre`; then
let a literal follow, of which `d` is already coded.  The context of the next byte is the entry of the literal
context map in force that the brotli format selects from the block type, the prediction mode and the last
two bytes of the data (0 before the beginning); except possibly for the first two bytes of a literal that
begins at the first eight positions of the ring. -/
theorem literal_context_partial (o : Codec.Opts) (dw : Nat → Nat → Nat → List UInt8) (L : Nat) (hL : 8 ≤ L)
    (room : Nat) (hroom : 0 < room) (pre : List Pipe.Item) (hv : ∀ x ∈ pre, x.Valid o dw L)
    (hi : Recode.InHistory 0 (pre.map (Pipe.Item.ringCmd dw))) :
    ∃ fuel0 s, (∀ fuel, fuel0 ≤ fuel → sendMany o dw room fuel pre (Pipe.Snd.init L) = some (.ok s)) ∧
      s.lbk.ctxMap.length = 16384 ∧
      ∀ d : List UInt8, 8 ≤ (Pipe.original dw pre).length % L ∨ 2 ≤ d.length →
        (d.foldl Lbk.pushByte s.lbk).context =
          (s.lbk.ctxMap[64 * (blockType pre).toNat +
            rfcContext (predMode pre) (back 1 (Pipe.original dw pre ++ d))
              (back 2 (Pipe.original dw pre ++ d))]?).map UInt8.toNat := by
  obtain ⟨f0, s, h1, h2, h3, h4⟩ := sendMany_spec (o := o) hL hroom pre hv (Pipe.snd_init_ok hL)
  have hring : Recode.expand (List.replicate L 0) (pre.map (Pipe.Item.ringCmd dw)) =
      List.replicate L 0 ++ Pipe.original dw pre := by
    have := Recode.expand_append (List.replicate L 0) [] _ hi
    rw [List.append_nil] at this
    exact this
  refine ⟨f0, s, h1, h2.lbk.map, ?_⟩
  intro d hd
  have hb : s.lbk.btype = blockType pre := h3
  have hm : s.lbk.mode = predMode pre := h4
  have hlast := h2.last
  rw [hring] at hlast
  have hk := context_step (L := L) (d := d) h2.lbk hlast (by simp; omega) (by
    rw [List.length_append, List.length_replicate, Nat.add_mod_left]
    exact hd)
  rw [hk, hb, hm, List.append_assoc, back_zeros, back_zeros]

/-- The states the bytes of a literal are coded in: byte number `d.length` is coded as the state after the
bytes `d` says. -/
theorem coded_in {l l' : Lbk} {tr : Trace Key Bool} {d e : List UInt8} {b : UInt8}
    (h : sendBytes l (d ++ b :: e) = some (tr, l')) :
    ∃ c1 c2, nibChoice (d.foldl Lbk.pushByte l) true 0 = some c1 ∧
      nibChoice (d.foldl Lbk.pushByte l) false (b.toNat >>> 4) = some c2 ∧
      tr[2 * d.length]? = some (c1, b.toNat >>> 4) ∧ tr[2 * d.length + 1]? = some (c2, b.toNat &&& 0xf) := by
  induction d generalizing l tr with
  | nil =>
    simp only [List.nil_append, sendBytes] at h
    obtain ⟨c1, h1, h⟩ := Option.bind_eq_some_iff.1 h
    obtain ⟨c2, h2, h⟩ := Option.bind_eq_some_iff.1 h
    obtain ⟨r, -, h⟩ := Option.map_eq_some_iff.1 h
    simp only [Prod.mk.injEq] at h
    rw [← h.1]
    exact ⟨c1, c2, h1, h2, rfl, rfl⟩
  | cons x d ih =>
    simp only [List.cons_append, sendBytes] at h
    obtain ⟨c1, h1, h⟩ := Option.bind_eq_some_iff.1 h
    obtain ⟨c2, h2, h⟩ := Option.bind_eq_some_iff.1 h
    obtain ⟨r, hr, h⟩ := Option.map_eq_some_iff.1 h
    simp only [Prod.mk.injEq] at h
    obtain ⟨rfl, hl⟩ := h
    obtain ⟨k1, k2, e1, e2, e3, e4⟩ := ih (l := l.pushByte x) (tr := r.1) (by rw [hr, ← hl])
    refine ⟨k1, k2, e1, e2, ?_, ?_⟩
    · rw [List.length_cons, show 2 * (d.length + 1) = 2 * d.length + 1 + 1 by omega,
        List.getElem?_cons_succ, List.getElem?_cons_succ, e3]
    · rw [List.length_cons, show 2 * (d.length + 1) + 1 = 2 * d.length + 1 + 1 + 1 by omega,
        List.getElem?_cons_succ, List.getElem?_cons_succ, e4]

/-! ## Examples -/

/-- The hypotheses of `literal_context_partial` are met by the commands of `demoItems`, the ring is 256
bytes in, the block type is 200 and the mode is that of the prediction mode command. -/
example : (∀ x ∈ Pipe.demoItems, x.Valid Codec.demoOpts Pipe.demoWords 1024) ∧
    Recode.InHistory 0 (Pipe.demoItems.map (Pipe.Item.ringCmd Pipe.demoWords)) ∧
    8 ≤ (Pipe.original Pipe.demoWords Pipe.demoItems).length % 1024 ∧
    blockType Pipe.demoItems = 200 ∧ predMode Pipe.demoItems = Codec.demoPm.mode :=
  ⟨Pipe.demoItems_valid, by
    simp [Pipe.demoItems, Pipe.Item.ringCmd, Recode.InHistory, Recode.Cmd.size, Pipe.demoWords],
    by decide +kernel, by decide +kernel, by decide +kernel⟩

/-- In text, after "e.": class 36 with class 3. -/
example : rfcContext 2 (back 1 [101, 46]) (back 2 [101, 46]) = 39 := by decide +kernel

end Divans.Lit
