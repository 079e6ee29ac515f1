import Verif.RecodeRun

/-!
# Properties of the recoder

C12 (commands are expanded as LZ77 says), C13 (the output does not depend on how output space is
handed over), C14 (a copy ends or fails cleanly: false in general, true for distances between 1 and
the ring size minus 1), and the bytes that literals are predicted from (C40).
-/

namespace Divans.Recode

/-! ## Specification -/

/-- Expand commands after the bytes `h`. -/
def expand (h : List UInt8) (cmds : List Cmd) : List UInt8 := cmds.foldl applyCmd h

/-- The decompressed bytes of a command sequence. -/
def lz77 (cmds : List Cmd) : List UInt8 := expand [] cmds

/-- Every copy refers to bytes that have been produced, given that `n` bytes exist already. -/
def InHistory : Nat → List Cmd → Prop
  | _, [] => True
  | n, .copy d k :: cs => 0 < d ∧ d ≤ n ∧ InHistory (n + k) cs
  | n, c :: cs => InHistory (n + c.size) cs

/-! ## The caller -/

/-- A caller of `encode_cmd`: the `i`-th call gets `rooms[i]` bytes of output space.  After
`NeedsMoreOutput` the same command is passed again, after success the next one; when all commands
are done, `flush` is called until it succeeds.  Returns the state, all bytes received, the commands
not finished, and `ok` when everything is done, `more` when the calls are used up first.
Models the use in `/repo/src/codec/decoder.rs:165-188` and `/repo/src/codec/io.rs:120-140`. -/
def drive : St → List Cmd → List Nat → Run ((St × List UInt8 × Res) × List Cmd)
  | s, cs, [] => .done ((s, [], .more), cs)
  | s, [], room :: rooms =>
    match flush s room with
    | none => .panic
    | some (s', o, .more) =>
      match drive s' [] rooms with
      | .done ((s'', o', r), rest) => .done ((s'', o ++ o', r), rest)
      | x => x
    | some (s', o, r) => .done ((s', o, r), [])
  | s, c :: cs, room :: rooms =>
    match encodeCmd s c room with
    | .panic => .panic
    | .spin => .spin
    | .done (s', o, .fail) => .done ((s', o, .fail), c :: cs)
    | .done (s', o, .more) =>
      match drive s' (c :: cs) rooms with
      | .done ((s'', o', r), rest) => .done ((s'', o ++ o', r), rest)
      | x => x
    | .done (s', o, .ok) =>
      match drive s' cs rooms with
      | .done ((s'', o', r), rest) => .done ((s'', o ++ o', r), rest)
      | x => x

/-- A caller of `encode_commands`: the `i`-th call gets `rooms[i]` bytes of output space and the
commands not consumed so far.  Models the use in `/repo/src/bin/divans.rs` (`recode_inner`). -/
def driveMany : St → List Cmd → List Nat → Run ((St × List UInt8 × Res) × List Cmd)
  | s, cs, [] => .done ((s, [], .more), cs)
  | s, cs, room :: rooms =>
    match encodeCommands s cs room with
    | .done ((s', o, .more), rest) =>
      match driveMany s' rest rooms with
      | .done ((s'', o', r), rest) => .done ((s'', o ++ o', r), rest)
      | x => x
    | x => x

/-! ## Proofs about the callers -/

theorem applyCmd_prefix (h : List UInt8) (c : Cmd) : ∃ t, applyCmd h c = h ++ t := by
  cases c with
  | lit data => exact ⟨data, rfl⟩
  | dict w f => exact ⟨w, rfl⟩
  | other => exact ⟨[], by simp [applyCmd]⟩
  | copy d n =>
    simp only [applyCmd]
    induction n generalizing h with
    | zero => exact ⟨[], by simp [lzCopy]⟩
    | succ n ih =>
      obtain ⟨t, ht⟩ := ih (h ++ [h.getD (h.length - d) 0])
      exact ⟨_, by simp only [lzCopy]; rw [ht, List.append_assoc]⟩

theorem expand_prefix (h : List UInt8) (cmds : List Cmd) : ∃ t, expand h cmds = h ++ t := by
  induction cmds generalizing h with
  | nil => exact ⟨[], by simp [expand]⟩
  | cons c cs ih =>
    obtain ⟨t, ht⟩ := applyCmd_prefix h c
    obtain ⟨u, hu⟩ := ih (applyCmd h c)
    exact ⟨t ++ u, by simp only [expand, List.foldl_cons] at hu ⊢; rw [hu, ht, List.append_assoc]⟩

theorem part_prefix (h : List UInt8) (c : Cmd) (k : Nat) (hk : SubOk c k) :
    ∃ t, applyCmd h c = part h c k ++ t := by
  cases c with
  | lit data => exact ⟨data.drop k, by simp [applyCmd, part]⟩
  | dict w f => exact ⟨w.drop k, by simp [applyCmd, part]⟩
  | other => exact ⟨[], by simp [applyCmd, part]⟩
  | copy d n =>
    obtain ⟨t, ht⟩ := applyCmd_prefix (lzCopy h d k) (.copy d (n - k))
    refine ⟨t, ?_⟩
    have hk' : k ≤ n := hk
    simp only [applyCmd, part] at ht ⊢
    rw [← ht, ← lzCopy_add, Nat.add_sub_cancel' hk']

theorem Inv.prefix {L : Nat} {s : St} {E H T : List UInt8} (i : Inv L s E H) (h : ∃ t, T = H ++ t) :
    E <+: T.drop L := by
  obtain ⟨t, rfl⟩ := h
  have := i.hist.long
  rw [i.len] at this
  rw [List.drop_append_of_le_length this, ← i.bytes, List.append_assoc]
  exact List.prefix_append _ _

theorem pending_nil {s : St} (g : Good s) (h : pend s = 0) : pending s = [] := by
  have := pending_length s g
  rw [h] at this
  exact List.length_eq_zero_iff.mp this

/-- The history while a command list is being worked on. -/
def midway (h : List UInt8) (cs : List Cmd) (s : St) : List UInt8 :=
  match cs with
  | [] => h
  | c :: _ => part h c s.sub

/-- The progress value fits the first command. -/
def MidOk (cs : List Cmd) (s : St) : Prop :=
  match cs with
  | [] => True
  | c :: _ => SubOk c s.sub

theorem midway_zero (h : List UInt8) (cs : List Cmd) (s : St) (h0 : s.sub = 0) :
    midway h cs s = h ∧ MidOk cs s := by
  cases cs with
  | nil => exact ⟨rfl, trivial⟩
  | cons c cs => simp only [midway, MidOk, h0]; exact ⟨part_zero h c, subOk_zero c⟩

theorem midway_prefix (h : List UInt8) (cs : List Cmd) (s : St) (hm : MidOk cs s) :
    ∃ t, expand h cs = midway h cs s ++ t := by
  cases cs with
  | nil => exact ⟨[], by simp [expand, midway]⟩
  | cons c cs =>
    obtain ⟨t, ht⟩ := part_prefix h c s.sub hm
    obtain ⟨u, hu⟩ := expand_prefix (applyCmd h c) cs
    refine ⟨t ++ u, ?_⟩
    simp only [expand, List.foldl_cons, midway] at hu ⊢
    rw [hu, ht, List.append_assoc]

/-- What a run of calls ends with. -/
structure Driven (L : Nat) (h : List UInt8) (cs : List Cmd) (E : List UInt8)
    (x : (St × List UInt8 × Res) × List Cmd) : Prop where
  notFail : x.1.2.2 ≠ Res.fail
  pre : E ++ x.1.2.1 <+: (expand h cs).drop L
  total : x.1.1.total = (E ++ x.1.2.1).length
  finished : x.1.2.2 = Res.ok → x.2 = [] ∧ E ++ x.1.2.1 = (expand h cs).drop L

theorem drive_spec (L : Nat) (hL : 1 < L) (rooms : List Nat) (cs : List Cmd)
    (hv : ∀ c ∈ cs, Valid L c) (h : List UInt8) (s : St) (E : List UInt8)
    (i : Inv L s E (midway h cs s)) (hm : MidOk cs s) :
    ∃ x, drive s cs rooms = .done x ∧ Driven L h cs E x := by
  induction rooms generalizing cs h s E with
  | nil =>
    refine ⟨_, rfl, by simp, ?_, by simpa using i.total, by simp⟩
    simpa using i.prefix (midway_prefix h cs s hm)
  | cons room rooms ih =>
    cases cs with
    | nil =>
      obtain ⟨s', o, r, hf, i', hsub, hb, hpd, hr⟩ := i.flush room
      simp only [drive]
      rw [hf]
      rcases hr with ⟨rfl, hp0⟩ | ⟨rfl, hl, hpos⟩
      · have heq : E ++ o = (expand h []).drop L := by
          have := i'.bytes
          rw [pending_nil i'.good hp0, List.append_nil] at this
          exact this
        refine ⟨_, rfl, by simp, ?_, i'.total, fun _ => ⟨rfl, heq⟩⟩
        simp only [heq]; exact List.prefix_refl _
      · obtain ⟨⟨⟨s'', o', r⟩, rest⟩, he, D⟩ := ih [] hv h s' (E ++ o) i' trivial
        simp only
        rw [he]
        have := D.pre; have := D.total; have := D.finished
        exact ⟨_, rfl, D.notFail, by rw [← List.append_assoc]; exact D.pre,
          by rw [← List.append_assoc]; exact D.total,
          by rw [← List.append_assoc]; exact D.finished⟩
    | cons c cs =>
      obtain ⟨s', o, r, he, C⟩ := encodeCmd_spec L hL c (hv c (by simp)) h s E room i hm
      simp only [drive]
      rw [he]
      rcases C.cases with ⟨rfl, h0, i'⟩ | ⟨rfl, hl, hs', i'⟩
      · have hmz := midway_zero (applyCmd h c) cs s' h0
        obtain ⟨⟨⟨s'', o', r⟩, rest⟩, he, D⟩ := ih cs (fun x hx => hv x (by simp [hx]))
          (applyCmd h c) s' (E ++ o) (by rw [hmz.1]; exact i') hmz.2
        simp only
        rw [he]
        exact ⟨_, rfl, D.notFail, by rw [← List.append_assoc]; exact D.pre,
          by rw [← List.append_assoc]; exact D.total,
          by rw [← List.append_assoc]; exact D.finished⟩
      · obtain ⟨⟨⟨s'', o', r⟩, rest⟩, he, D⟩ := ih (c :: cs) hv h s' (E ++ o) i' hs'
        simp only
        rw [he]
        exact ⟨_, rfl, D.notFail, by rw [← List.append_assoc]; exact D.pre,
          by rw [← List.append_assoc]; exact D.total,
          by rw [← List.append_assoc]; exact D.finished⟩

theorem new_inv (ring : List UInt8) (hr : 1 < ring.length) :
    Inv ring.length (St.new ring) [] ring := by
  refine ⟨⟨by simp [St.new, St.len]; omega, by simp [St.new, St.len]; omega⟩, rfl,
    ⟨Nat.le_refl _, by simp [window, St.new, St.len]⟩, ?_, rfl, by simp [St.new]⟩
  simp [pending, pend, window, St.new, St.len]

theorem expand_append (p h : List UInt8) (cs : List Cmd) (hi : InHistory h.length cs) :
    expand (p ++ h) cs = p ++ expand h cs := by
  induction cs generalizing h with
  | nil => rfl
  | cons c cs ih =>
    have key : applyCmd (p ++ h) c = p ++ applyCmd h c ∧ InHistory (applyCmd h c).length cs := by
      cases c with
      | lit data =>
        refine ⟨by simp [applyCmd], ?_⟩
        simpa [InHistory, applyCmd, Cmd.size] using hi
      | dict w f =>
        refine ⟨by simp [applyCmd], ?_⟩
        simpa [InHistory, applyCmd, Cmd.size] using hi
      | other =>
        refine ⟨by simp [applyCmd], ?_⟩
        simpa [InHistory, applyCmd, Cmd.size] using hi
      | copy d n =>
        obtain ⟨h0, hd, hrest⟩ := hi
        refine ⟨?_, by simp only [applyCmd, lzCopy_length]; exact hrest⟩
        simp only [applyCmd]
        clear hrest ih
        induction n generalizing h with
        | zero => rfl
        | succ n ihn =>
          simp only [lzCopy]
          have hg : (p ++ h).getD ((p ++ h).length - d) 0 = h.getD (h.length - d) 0 := by
            rw [List.getD_eq_getElem?_getD, List.getD_eq_getElem?_getD, List.length_append,
              List.getElem?_append_right (by omega)]
            congr 2; omega
          rw [hg, List.append_assoc]
          exact ihn _ (by simp; omega)
    have h2 := ih (applyCmd h c) key.2
    simp only [expand, List.foldl_cons] at h2 ⊢
    rw [key.1, h2]

theorem ring_spec (ring : List UInt8) (cs : List Cmd) (hi : InHistory 0 cs) :
    (expand ring cs).drop ring.length = lz77 cs := by
  have := expand_append ring [] cs hi
  rw [List.append_nil] at this
  rw [this, List.drop_left]; rfl

/-! ## C12 and C13 for `encode_cmd` -/

/-- C12.  Whatever the ring size, its initial contents, the commands and the output buffers: when
copies refer to produced bytes and reach less than the ring size back, every call returns (no panic,
no endless loop), no call fails, the bytes received so far are a prefix of the LZ77 expansion of the
commands, the counter of bytes given out is right, and once the calls report the end, the bytes
received are exactly the expansion. -/
theorem recode_is_lz77 (ring : List UInt8) (hr : 1 < ring.length) (cmds : List Cmd)
    (hv : ∀ c ∈ cmds, Valid ring.length c) (hi : InHistory 0 cmds) (rooms : List Nat) :
    ∃ s out res rest, drive (St.new ring) cmds rooms = .done ((s, out, res), rest) ∧
      res ≠ Res.fail ∧ out <+: lz77 cmds ∧ s.total = out.length ∧
      (res = Res.ok → rest = [] ∧ out = lz77 cmds) := by
  have hmz := midway_zero ring cmds (St.new ring) rfl
  obtain ⟨⟨⟨s, o, r⟩, rest⟩, he, D⟩ := drive_spec ring.length hr rooms cmds hv ring (St.new ring) []
    (by rw [hmz.1]; exact new_inv ring hr) hmz.2
  have e := ring_spec ring cmds hi
  refine ⟨s, o, r, rest, he, D.notFail, ?_, ?_, ?_⟩
  · have := D.pre; rw [e] at this; simpa using this
  · simpa using D.total
  · have := D.finished; rw [e] at this; simpa using this

/-- C12, without the condition that copies refer to produced bytes: bytes before the start are the
initial contents of the ring. -/
theorem recode_is_lz77_ring (ring : List UInt8) (hr : 1 < ring.length) (cmds : List Cmd)
    (hv : ∀ c ∈ cmds, Valid ring.length c) (rooms : List Nat) :
    ∃ s out res rest, drive (St.new ring) cmds rooms = .done ((s, out, res), rest) ∧
      res ≠ Res.fail ∧ out <+: (expand ring cmds).drop ring.length ∧ s.total = out.length ∧
      (res = Res.ok → rest = [] ∧ out = (expand ring cmds).drop ring.length) := by
  have hmz := midway_zero ring cmds (St.new ring) rfl
  obtain ⟨⟨⟨s, o, r⟩, rest⟩, he, D⟩ := drive_spec ring.length hr rooms cmds hv ring (St.new ring) []
    (by rw [hmz.1]; exact new_inv ring hr) hmz.2
  refine ⟨s, o, r, rest, he, D.notFail, ?_, ?_, ?_⟩
  · simpa using D.pre
  · simpa using D.total
  · simpa using D.finished

/-- C13.  Two callers that hand over their output space in different pieces and both reach the end
have received the same bytes. -/
theorem recode_split_independent (ring : List UInt8) (hr : 1 < ring.length) (cmds : List Cmd)
    (hv : ∀ c ∈ cmds, Valid ring.length c) (rooms₁ rooms₂ : List Nat)
    (s₁ s₂ : St) (o₁ o₂ : List UInt8) (rest₁ rest₂ : List Cmd)
    (h₁ : drive (St.new ring) cmds rooms₁ = .done ((s₁, o₁, .ok), rest₁))
    (h₂ : drive (St.new ring) cmds rooms₂ = .done ((s₂, o₂, .ok), rest₂)) : o₁ = o₂ := by
  obtain ⟨s, o, r, rest, e, _, _, _, f⟩ := recode_is_lz77_ring ring hr cmds hv rooms₁
  obtain ⟨s', o', r', rest', e', _, _, _, f'⟩ := recode_is_lz77_ring ring hr cmds hv rooms₂
  rw [h₁] at e; rw [h₂] at e'
  simp only [Run.done.injEq, Prod.mk.injEq] at e e'
  obtain ⟨⟨_, rfl, rfl⟩, _⟩ := e
  obtain ⟨⟨_, rfl, rfl⟩, _⟩ := e'
  rw [(f rfl).2, (f' rfl).2]

theorem drive_finishes (L : Nat) (hL : 1 < L) (rooms : List Nat) (cs : List Cmd)
    (hv : ∀ c ∈ cs, Valid L c) (h : List UInt8) (s : St) (E : List UInt8)
    (i : Inv L s E (midway h cs s)) (hm : MidOk cs s) (hpos : ∀ r ∈ rooms, 0 < r)
    (hmany : (expand h cs).length - L - E.length + cs.length + 1 ≤ rooms.length) :
    ∃ s' o, drive s cs rooms = .done ((s', o, .ok), []) := by
  induction rooms generalizing cs h s E with
  | nil => simp at hmany
  | cons room rooms ih =>
    have hpre := (i.prefix (midway_prefix h cs s hm)).length_le
    have hroom := hpos room (by simp)
    simp only [List.length_cons] at hmany
    cases cs with
    | nil =>
      obtain ⟨s', o, r, hf, i', hsub, hb, hpd, hr⟩ := i.flush room
      simp only [drive]
      rw [hf]
      rcases hr with ⟨rfl, hp0⟩ | ⟨rfl, hl, hp⟩
      · exact ⟨_, _, rfl⟩
      · have hpre' := (i'.prefix (midway_prefix h [] s' trivial)).length_le
        simp only [List.length_drop, List.length_append, List.length_nil] at hpre hpre' hmany
        obtain ⟨s'', o', he⟩ := ih [] hv h s' (E ++ o) i' trivial (fun r hr => hpos r (by simp [hr]))
          (by simp only [List.length_append, List.length_nil]; omega)
        simp only
        rw [he]
        exact ⟨_, _, rfl⟩
    | cons c cs =>
      obtain ⟨s', o, r, he, C⟩ := encodeCmd_spec L hL c (hv c (by simp)) h s E room i hm
      simp only [drive]
      rw [he]
      have hex : expand h (c :: cs) = expand (applyCmd h c) cs := rfl
      rcases C.cases with ⟨rfl, h0, i'⟩ | ⟨rfl, hl, hs', i'⟩
      · have hmz := midway_zero (applyCmd h c) cs s' h0
        obtain ⟨s'', o', he⟩ := ih cs (fun x hx => hv x (by simp [hx]))
          (applyCmd h c) s' (E ++ o) (by rw [hmz.1]; exact i') hmz.2
          (fun r hr => hpos r (by simp [hr]))
          (by rw [hex] at hmany
              simp only [List.length_append, List.length_cons] at hmany ⊢; omega)
        simp only
        rw [he]
        exact ⟨_, _, rfl⟩
      · have hpre' := (i'.prefix (midway_prefix h (c :: cs) s' hs')).length_le
        simp only [List.length_drop, List.length_append] at hpre hpre'
        obtain ⟨s'', o', he⟩ := ih (c :: cs) hv h s' (E ++ o) i' hs'
          (fun r hr => hpos r (by simp [hr]))
          (by simp only [List.length_append]; omega)
        simp only
        rw [he]
        exact ⟨_, _, rfl⟩

/-- C13.  A caller that hands over at least one byte of output space in every call reaches the end
after at most one call per command, one per byte and one more. -/
theorem recode_finishes (ring : List UInt8) (hr : 1 < ring.length) (cmds : List Cmd)
    (hv : ∀ c ∈ cmds, Valid ring.length c) (hi : InHistory 0 cmds) (rooms : List Nat)
    (hpos : ∀ r ∈ rooms, 0 < r)
    (hmany : (lz77 cmds).length + cmds.length + 1 ≤ rooms.length) :
    ∃ s, drive (St.new ring) cmds rooms = .done ((s, lz77 cmds, .ok), []) := by
  have hmz := midway_zero ring cmds (St.new ring) rfl
  have e := ring_spec ring cmds hi
  have hl : (expand ring cmds).length - ring.length = (lz77 cmds).length := by
    rw [← e, List.length_drop]
  obtain ⟨s', o, he⟩ := drive_finishes ring.length hr rooms cmds hv ring (St.new ring) []
    (by rw [hmz.1]; exact new_inv ring hr) hmz.2 hpos
    (by rw [List.length_nil]; omega)
  obtain ⟨s, o', r, rest, e', _, _, _, f⟩ := recode_is_lz77 ring hr cmds hv hi rooms
  rw [he] at e'
  simp only [Run.done.injEq, Prod.mk.injEq] at e'
  obtain ⟨⟨_, rfl, rfl⟩, _⟩ := e'
  rw [(f rfl).2] at he
  exact ⟨s', he⟩

/-- Literals, an overlapping copy, a copy that wraps around the ring of 8, a word, three bytes of
output at a time. -/
example :
    let cmds := [Cmd.lit [1, 2, 3], .copy 2 7, .dict [9, 8, 7, 6] 4, .other, .copy 6 6]
    (∀ c ∈ cmds, Valid 8 c) ∧ lz77 cmds = [1, 2, 3, 2, 3, 2, 3, 2, 3, 2, 9, 8, 7, 6, 3, 2, 9, 8, 7, 6] ∧
    (match drive (St.new (List.replicate 8 0)) cmds (List.replicate 30 3) with
      | .done ((_, o, r), rest) => decide (o = lz77 cmds ∧ r = Res.ok ∧ rest = [])
      | _ => false) = true := by
  decide +kernel

example : InHistory 0 [Cmd.lit [1, 2, 3], .copy 2 7, .dict [9, 8, 7, 6] 4, .other, .copy 6 6] := by
  simp [InHistory, Cmd.size]

/-! ## C12 and C13 for `encode_commands` -/

theorem encodeCommands_spec (L : Nat) (hL : 1 < L) (cs : List Cmd) (hv : ∀ c ∈ cs, Valid L c)
    (h : List UInt8) (s : St) (E : List UInt8) (room : Nat)
    (i : Inv L s E (midway h cs s)) (hm : MidOk cs s) :
    ∃ s' o r rest h', encodeCommands s cs room = .done ((s', o, r), rest) ∧
      o.length ≤ room ∧ (∀ c ∈ rest, Valid L c) ∧ expand h' rest = expand h cs ∧
      Inv L s' (E ++ o) (midway h' rest s') ∧ MidOk rest s' ∧
      ((r = Res.ok ∧ rest = [] ∧ pend s' = 0) ∨ (r = Res.more ∧ o.length = room)) := by
  induction cs generalizing h s E room with
  | nil =>
    obtain ⟨s', o, r, hf, i', hsub, hb, hpd, hr⟩ := i.flush room
    refine ⟨s', o, r, [], h, by simp only [encodeCommands]; rw [hf], hb, by simp, rfl, i', trivial, ?_⟩
    rcases hr with ⟨rfl, hp0⟩ | ⟨rfl, hl, hp⟩
    · exact Or.inl ⟨rfl, rfl, hp0⟩
    · exact Or.inr ⟨rfl, hl⟩
  | cons c cs ih =>
    obtain ⟨s', o, r, he, C⟩ := oneOfMany_spec L hL c (hv c (by simp)) h (c.size + 2) s E room i hm
      (by omega)
    simp only [encodeCommands]
    rw [he]
    have hb := C.bound
    rcases C.cases with ⟨rfl, h0, i'⟩ | ⟨rfl, hl, hs', i'⟩
    · have hmz := midway_zero (applyCmd h c) cs s' h0
      obtain ⟨s'', o', r, rest, h', he, hb', hv', hex, i'', hm'', hr⟩ :=
        ih (fun x hx => hv x (by simp [hx])) (applyCmd h c) s' (E ++ o) (room - o.length)
          (by rw [hmz.1]; exact i') hmz.2
      simp only
      rw [he]
      refine ⟨s'', o ++ o', r, rest, h', rfl, by rw [List.length_append]; omega, hv', hex,
        by rw [← List.append_assoc]; exact i'', hm'', ?_⟩
      rcases hr with hr | ⟨hr, hl⟩
      · exact Or.inl hr
      · exact Or.inr ⟨hr, by rw [List.length_append]; omega⟩
    · exact ⟨s', o, .more, c :: cs, h, rfl, hb, hv, rfl, i', hs', Or.inr ⟨rfl, hl⟩⟩

theorem driveMany_spec (L : Nat) (hL : 1 < L) (rooms : List Nat) (cs : List Cmd)
    (hv : ∀ c ∈ cs, Valid L c) (h : List UInt8) (s : St) (E : List UInt8)
    (i : Inv L s E (midway h cs s)) (hm : MidOk cs s) :
    ∃ x, driveMany s cs rooms = .done x ∧ Driven L h cs E x ∧
      (x.1.2.2 = Res.more → x.1.2.1.length = rooms.sum) := by
  induction rooms generalizing cs h s E with
  | nil =>
    refine ⟨_, rfl, ⟨by simp, ?_, by simpa using i.total, by simp⟩, by simp⟩
    simpa using i.prefix (midway_prefix h cs s hm)
  | cons room rooms ih =>
    obtain ⟨s', o, r, rest, h', he, hb, hv', hex, i', hm', hr⟩ :=
      encodeCommands_spec L hL cs hv h s E room i hm
    simp only [driveMany]
    rw [he]
    rcases hr with ⟨rfl, rfl, hp0⟩ | ⟨rfl, hl⟩
    · have heq : E ++ o = (expand h cs).drop L := by
        have := i'.bytes
        rw [pending_nil i'.good hp0, List.append_nil] at this
        rw [this, ← hex]; rfl
      refine ⟨_, rfl, ⟨by simp, ?_, i'.total, fun _ => ⟨rfl, heq⟩⟩, by simp⟩
      simp only [heq]; exact List.prefix_refl _
    · obtain ⟨⟨⟨s'', o', r⟩, rest'⟩, he', D, hfull⟩ := ih rest hv' h' s' (E ++ o) i' hm'
      have d1 := D.pre; have d2 := D.total; have d3 := D.finished
      rw [hex, List.append_assoc] at d1
      rw [List.append_assoc] at d2
      rw [hex, List.append_assoc] at d3
      simp only
      rw [he']
      refine ⟨_, rfl, ⟨D.notFail, d1, d2, d3⟩, ?_⟩
      intro hmore
      simp only at hmore hfull ⊢
      rw [List.length_append, List.sum_cons, hl, hfull hmore]

/-- C12 and C13 for the entry point that takes many commands: the same expansion, independent of the
output buffers, and reached as soon as the buffers offer more bytes than the expansion has. -/
theorem recode_many_is_lz77 (ring : List UInt8) (hr : 1 < ring.length) (cmds : List Cmd)
    (hv : ∀ c ∈ cmds, Valid ring.length c) (hi : InHistory 0 cmds) (rooms : List Nat) :
    ∃ s out res rest, driveMany (St.new ring) cmds rooms = .done ((s, out, res), rest) ∧
      res ≠ Res.fail ∧ out <+: lz77 cmds ∧ s.total = out.length ∧
      (res = Res.ok → rest = [] ∧ out = lz77 cmds) ∧
      ((lz77 cmds).length < rooms.sum → res = Res.ok) := by
  have hmz := midway_zero ring cmds (St.new ring) rfl
  obtain ⟨⟨⟨s, o, r⟩, rest⟩, he, D, hfull⟩ := driveMany_spec ring.length hr rooms cmds hv ring
    (St.new ring) [] (by rw [hmz.1]; exact new_inv ring hr) hmz.2
  have e := ring_spec ring cmds hi
  have d1 := D.pre; have d2 := D.total; have d3 := D.finished; have d4 := D.notFail
  rw [e] at d1 d3
  simp only [List.nil_append] at d1 d2 d3 d4 hfull
  refine ⟨s, o, r, rest, he, D.notFail, d1, d2, d3, fun hlt => ?_⟩
  cases r with
  | ok => rfl
  | fail => exact absurd rfl d4
  | more =>
    have h1 := hfull rfl
    have h2 := d1.length_le
    omega

example :
    let cmds := [Cmd.lit [1, 2, 3], .copy 2 7, .dict [9, 8, 7, 6] 4, .other, .copy 6 6]
    (match driveMany (St.new (List.replicate 8 0)) cmds [1, 5, 2, 8, 3, 9] with
      | .done ((_, o, r), rest) => decide (o = lz77 cmds ∧ r = Res.ok ∧ rest = [])
      | _ => false) = true := by
  decide +kernel

/-! ## C14

"A copy ends, or fails cleanly."  True for distances between 1 and the ring size minus 1 and for
distances beyond decode index plus ring size; false for distance 0 (division by zero), for the
distance that equals the ring size (endless loop) and for distances just above it (panic, or a
silent copy from the wrong place). -/

/-- C14, proved part.  After any valid commands, a copy with a distance between 1 and the ring size
minus 1 is carried out: no panic, no endless loop, no failure, and with at least one byte of space per
call the calls come to an end.  Missing: other distances, see the four theorems below. -/
theorem copy_ends_partial (ring : List UInt8) (hr : 1 < ring.length) (before : List Cmd)
    (hv : ∀ c ∈ before, Valid ring.length c) (d n : Nat) (hd : 0 < d) (hdL : d < ring.length)
    (rooms : List Nat) (hpos : ∀ r ∈ rooms, 0 < r)
    (hmany : (expand ring before).length + n + before.length + 2 ≤ rooms.length) :
    ∃ s out, drive (St.new ring) (before ++ [.copy d n]) rooms = .done ((s, out, .ok), []) ∧
      out = (lzCopy (expand ring before) d n).drop ring.length := by
  have hv' : ∀ c ∈ before ++ [Cmd.copy d n], Valid ring.length c := by
    intro c hc
    rcases List.mem_append.mp hc with h | h
    · exact hv c h
    · rw [List.mem_singleton.mp h]; exact ⟨hd, hdL⟩
  have hmz := midway_zero ring (before ++ [.copy d n]) (St.new ring) rfl
  have hex : expand ring (before ++ [.copy d n]) = lzCopy (expand ring before) d n := by
    simp [expand, applyCmd]
  obtain ⟨s', o, he⟩ := drive_finishes ring.length hr rooms (before ++ [.copy d n]) hv' ring
    (St.new ring) [] (by rw [hmz.1]; exact new_inv ring hr) hmz.2 hpos
    (by rw [hex, lzCopy_length, List.length_nil, List.length_append, List.length_singleton]; omega)
  obtain ⟨s, o', r, rest, e', _, _, _, f⟩ := recode_is_lz77_ring ring hr _ hv' rooms
  rw [he] at e'
  simp only [Run.done.injEq, Prod.mk.injEq] at e'
  obtain ⟨⟨_, rfl, rfl⟩, _⟩ := e'
  exact ⟨s', o, he, by rw [(f rfl).2, hex]⟩

/-- C14, proved part.  A distance above decode index plus ring size is reported as a failure and
nothing is written. -/
theorem copy_too_far_fails (s : St) (d n room : Nat) (hd : s.dec + s.len < d) (h64 : repeatMax < d)
    (hs : s.sub ≤ n) : encodeCmd s (.copy d n) room = .done (s, [], .fail) := by
  have hsrc : srcIndex s d = none := by
    rw [srcIndex, if_neg (by omega), if_neg (by omega)]
  have hp : parse s (.copy d n) = some (s, .fail) := by
    simp only [parse, parseCopy]
    rw [if_neg (by omega), if_neg (by omega), copySome, hsrc]
  simp only [encodeCmd, encodeLoop]
  rw [hp]

/-- C14 is false: a copy with distance 0 divides by zero, whatever the state of the ring. -/
theorem copy_distance_zero_panics (s : St) (n room : Nat) (hs : s.sub < n) :
    encodeCmd s (.copy 0 n) room = .panic := by
  have hp : parse s (.copy 0 n) = none := by
    simp only [parse, parseCopy]
    rw [if_neg (by omega), if_pos ⟨by simp [repeatMax], by omega⟩, copyRepeat]
    simp [readBack]
  simp only [encodeCmd, encodeLoop]
  rw [hp]

/-- C14 is false: a copy whose distance is the ring size never ends, however long it runs. -/
theorem copy_ring_size_never_ends (s : St) (g : Good s) (hL : repeatMax < s.len) (h0 : pend s = 0)
    (n : Nat) (hs : s.sub < n) (room fuel : Nat) :
    encodeLoop fuel s (.copy s.len n) room = .spin := by
  induction fuel generalizing s with
  | zero => rfl
  | succ fuel ih =>
    have hdd := g.dec
    have hml : s.len = s.mem.length := rfl
    have hsrc : srcIndex s s.len = some s.dec := by
      rw [srcIndex, if_neg (by omega), if_pos (by omega)]; congr 1; omega
    have hch : ∀ w, chunk s s.dec w = 0 := by intro w; simp [chunk]
    have hmem : write? s.mem s.dec [] = some s.mem := by
      rw [write?, if_pos (by simp; omega)]; simp
    have hp : parse s (.copy s.len n) = some (s, .more) := by
      simp only [parse, parseCopy]
      rw [if_neg (by omega), if_neg (by omega), copySome, hsrc]
      simp only [hch]
      rw [if_neg (by omega), if_neg (by omega), slice?, if_pos (by omega)]
      simp only [List.take_zero, hmem, wrapIdx]
      rw [if_neg (by omega), if_pos (by omega)]
      simp
    obtain ⟨s', hf, g', hm, hdec, hsub, htot, hpd, _⟩ := flush_spec s g room
    rw [if_pos (by omega), pending_nil g h0, List.take_nil] at hf
    simp only [encodeLoop]
    rw [hp]
    simp only
    rw [hf]
    have hlen : s'.len = s.len := by simp [St.len, hm]
    simp only [List.length_nil, Nat.sub_zero]
    have := ih s' g' (by omega) (by omega) (by omega)
    rw [hlen] at this
    rw [this]; rfl

/-- C14 is false: a copy whose distance exceeds the ring size by `k` panics when it is longer than
`k` and `k` bytes fit before the end of the ring. -/
theorem copy_beyond_ring_panics (s : St) (g : Good s) (k n room : Nat) (h0 : pend s = 0)
    (hk0 : 0 < k) (hk : k ≤ s.dec) (hfit : k < s.len - s.dec) (hL : repeatMax < s.len + k)
    (hs : s.sub ≤ n) (hn : k < n - s.sub) :
    encodeCmd s (.copy (s.len + k) n) room = .panic := by
  have hdd := g.dec
  have hsl := spaceLeft_eq s g
  have hsrc : srcIndex s (s.len + k) = some (s.dec - k) := by
    rw [srcIndex, if_neg (by omega), if_pos (by omega)]; congr 1; omega
  have hch : k < chunk s (s.dec - k) (min (n - s.sub) (s.len + k)) := by
    simp only [chunk]
    rw [if_pos (by omega), hsl, h0]
    omega
  have hp : parse s (.copy (s.len + k) n) = none := by
    simp only [parse, parseCopy]
    rw [if_neg (by omega), if_neg (by omega), copySome, hsrc]
    simp only
    rw [if_neg (by omega), if_pos ⟨by omega, by omega⟩]
  simp only [encodeCmd, encodeLoop]
  rw [hp]

/-- C14 is false: when it is not longer than `k`, such a copy is not rejected but carried out as a
copy at distance `k`. -/
theorem copy_beyond_ring_reads_elsewhere (s : St) (g : Good s) (k n : Nat)
    (hk : k ≤ s.dec) (hL : repeatMax < s.len + k) (hs : s.sub ≤ n)
    (hn : n - s.sub ≤ k) :
    parse s (.copy (s.len + k) n) = parse s (.copy k n) := by
  have hdd := g.dec
  have hsrc : srcIndex s (s.len + k) = srcIndex s k := by
    rw [srcIndex, srcIndex, if_neg (by omega), if_pos (by omega), if_pos hk]; congr 1; omega
  simp only [parse, parseCopy]
  rw [if_neg (by omega), if_neg (by omega), if_neg (by omega), if_neg (by omega), copySome, copySome,
    hsrc, show min (n - s.sub) (s.len + k) = min (n - s.sub) k by omega]

/-- The states used above are reached: ten literals in a ring of 128 bytes, all given out. -/
example :
    ∃ s, drive (St.new (List.replicate 128 0)) [.lit [1, 2, 3, 4, 5, 6, 7, 8, 9, 10]] [20, 20] =
        .done ((s, [1, 2, 3, 4, 5, 6, 7, 8, 9, 10], .ok), []) ∧ Good s ∧ pend s = 0 ∧
      s.len = 128 ∧ s.dec = 10 ∧ s.sub = 0 := by
  refine ⟨⟨[1, 2, 3, 4, 5, 6, 7, 8, 9, 10] ++ List.replicate 118 0, 10, 10, 0, 10⟩, by decide +kernel, ⟨by decide +kernel, by decide +kernel⟩,
    by decide +kernel, by decide +kernel, rfl, rfl⟩

/-! ## C40: the bytes a literal is predicted from -/

/-- C40, proved part: away from the start of the ring, the context of the next literal is the last
eight bytes, oldest first.  Missing: the first eight positions of the ring, where it is false. -/
theorem context_is_last_eight_partial (s : St) (g : Good s) (H : List UInt8) (h : Hist s H)
    (h8 : 8 ≤ s.dec) : last8 s = some (H.drop (H.length - 8)) := by
  have hdd := g.dec
  have hlong := h.long
  rw [last8, if_neg (by omega), slice_back s g H h 8 8 (by omega) (by omega) _ (Or.inl ⟨h8, rfl⟩),
    List.take_of_length_le (by simp; omega)]

/-- C40 is false at the first eight positions of the ring: there the context is the last eight bytes
in reverse order. -/
theorem context_reversed_at_ring_start (s : St) (g : Good s) (H : List UInt8) (h : Hist s H)
    (h8 : s.dec < 8) (hL : 8 ≤ s.len) : last8 s = some (H.drop (H.length - 8)).reverse := by
  have hdd := g.dec
  have hlong := h.long
  have hml : s.len = s.mem.length := rfl
  rw [last8, if_pos h8]
  congr 1
  apply List.ext_getElem
  · simp; omega
  · intro i hi1 hi2
    have hi : i < 8 := by simpa using hi1
    obtain ⟨src, hsrc⟩ : ∃ src, src = (s.dec + s.len - i - 1) % s.len := ⟨_, rfl⟩
    have hcase : (i + 1 ≤ s.dec ∧ src = s.dec - (i + 1)) ∨
        (s.dec < i + 1 ∧ src = s.dec + s.len - (i + 1) ∧ 1 ≤ s.len - src) := by
      by_cases hc : i + 1 ≤ s.dec
      · left
        refine ⟨hc, ?_⟩
        rw [hsrc, show s.dec + s.len - i - 1 = s.dec - (i + 1) + s.len by omega,
          Nat.add_mod_right, Nat.mod_eq_of_lt (by omega)]
      · right
        have : src = s.dec + s.len - (i + 1) := by
          rw [hsrc, Nat.mod_eq_of_lt (by omega)]; omega
        exact ⟨by omega, this, by omega⟩
    have hsl := slice_back s g H h (i + 1) 1 (by omega) (by omega) src hcase
    have hsrclt : src < s.mem.length := by rw [hsrc]; exact Nat.mod_lt _ (by omega)
    rw [slice?, if_pos (by omega)] at hsl
    have hsl' := Option.some.inj hsl
    have h1 := congrArg (fun l => l[0]?) hsl'
    simp only [List.getElem?_take, List.getElem?_drop, Nat.add_zero] at h1
    simp only [Nat.lt_one_iff, if_true] at h1
    simp only [List.getElem_map, List.getElem_range, List.getElem_reverse, List.getElem_drop]
    rw [← hsrc, List.getD_eq_getElem?_getD, h1, List.getElem?_eq_getElem (by omega)]
    simp only [Option.getD_some]
    congr 1
    simp; omega

/-- Nine literals in a ring of 16, then eight more: the two cases of the context. -/
example :
    last8 ⟨[1, 2, 3, 4, 5, 6, 7, 8, 9, 10, 11, 12, 13, 14, 15, 16], 9, 0, 0, 0⟩ = some [2, 3, 4, 5, 6, 7, 8, 9] ∧
    last8 ⟨[17, 2, 3, 4, 5, 6, 7, 8, 9, 10, 11, 12, 13, 14, 15, 16], 1, 0, 0, 0⟩ = some [17, 16, 15, 14, 13, 12, 11, 10] := by
  decide

/-- The context as a function of the bytes produced so far (with the initial ring contents before
them) and the ring size alone. -/
def contextOf (L : Nat) (H : List UInt8) : List UInt8 :=
  if H.length % L < 8 then (H.drop (H.length - 8)).reverse else H.drop (H.length - 8)

/-- The context of the next literal depends only on the history and the ring size: not on how much
of the output the caller has taken, nor on how the commands were cut.  This is why compressor and
decompressor agree on it although C40 is false. -/
theorem context_from_history {L : Nat} {s : St} {E H : List UInt8} (i : Inv L s E H) (h8 : 8 ≤ L) :
    last8 s = some (contextOf L H) := by
  rw [contextOf, ← i.pos]
  by_cases hc : s.dec < 8
  · rw [if_pos hc]
    exact context_reversed_at_ring_start s i.good H i.hist hc (by rw [i.len]; exact h8)
  · rw [if_neg hc]
    exact context_is_last_eight_partial s i.good H i.hist (by omega)

end Divans.Recode
