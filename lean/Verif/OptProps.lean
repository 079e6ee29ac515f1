import Verif.Opt
import Verif.RecodeProps
import Verif.CodecStream

/-!
# Properties of the optimiser

C36 (the optimised commands stand for the same bytes, whatever the estimate answers) and C47 (the
optimiser does not crash: true when arithmetic wraps, false in builds that check it).
-/

namespace Divans.Opt

open Codec (Lru4 mnemonicCode obsDistance)
open Recode (lzCopy expand applyCmd)

/-! ## Specification -/

/-- The input of the block. -/
def Pair.bytes (p : Pair) : List UInt8 := p.d0 ++ p.d1

/-- The two pieces follow each other, and offsets count from the start of the first. -/
def Pair.Adjacent (p : Pair) : Prop := p.o0 = 0 ∧ p.o1 = p.d0.length

/-- The commands stand for the bytes of the input from `pos` to `fin`, when the bytes `pre` have gone
before the input: literals are at the place reached, each within one of the two pieces; copies and
dictionary words reproduce the input.  Distances fit into the 30 bits the format has for them. -/
def Describes (p : Pair) (pre : List UInt8) : Nat → List Cmd → Nat → Prop
  | pos, [], fin => pos = fin
  | pos, .lit off len :: cs, fin =>
    (off = pos ∧ pos + len ≤ p.bytes.length ∧ (pos + len ≤ p.d0.length ∨ p.d0.length ≤ pos)) ∧
      Describes p pre (pos + len) cs fin
  | pos, .copy d n :: cs, fin =>
    (d < 2 ^ 30 ∧ pos + n ≤ p.bytes.length ∧
      lzCopy (pre ++ p.bytes.take pos) d n = pre ++ p.bytes.take (pos + n)) ∧
      Describes p pre (pos + n) cs fin
  | pos, .dict w _ :: cs, fin =>
    (pos + w.length ≤ p.bytes.length ∧ p.bytes.take pos ++ w = p.bytes.take (pos + w.length)) ∧
      Describes p pre (pos + w.length) cs fin
  | pos, .other _ :: cs, fin => Describes p pre pos cs fin

/-- The commands with their bytes. -/
def Pair.thawAll (p : Pair) : List Cmd → Option (List Recode.Cmd)
  | [] => some []
  | c :: cs => (p.thaw c).bind fun x => (p.thawAll cs).map (x :: ·)

/-- Dictionary words and block switches, each with the number of bytes before it. -/
def marks : Nat → List Cmd → List (Nat × Cmd)
  | _, [] => []
  | pos, .lit _ len :: cs => marks (pos + len) cs
  | pos, .copy _ n :: cs => marks (pos + n) cs
  | pos, .dict w f :: cs => (pos, .dict w f) :: marks (pos + w.length) cs
  | pos, .other t :: cs => (pos, .other t) :: marks pos cs

/-! ## Lemmas -/

/-- Bytes a command stands for. -/
def Cmd.size : Cmd → Nat
  | .lit _ len => len
  | .copy _ n => n
  | .dict w _ => w.length
  | .other _ => 0

/-- Bytes a list stands for. -/
def sizes : List Cmd → Nat
  | [] => 0
  | c :: cs => c.size + sizes cs

theorem describes_fin {p : Pair} {pre : List UInt8} {cs : List Cmd} :
    ∀ {pos fin : Nat}, Describes p pre pos cs fin → fin = pos + sizes cs := by
  induction cs with
  | nil => intro pos fin h; simp only [Describes] at h; simp [sizes, h]
  | cons c cs ih =>
    intro pos fin h
    cases c <;> simp only [Describes] at h <;> simp only [sizes, Cmd.size]
    · rw [ih h.2]; omega
    · rw [ih h.2]; omega
    · rw [ih h.2]; omega
    · rw [ih h]; omega

theorem describes_append {p : Pair} {pre : List UInt8} {a b : List Cmd} :
    ∀ {pos fin : Nat}, Describes p pre pos (a ++ b) fin ↔
      ∃ m, Describes p pre pos a m ∧ Describes p pre m b fin := by
  induction a with
  | nil => intro pos fin; simp [Describes]
  | cons c cs ih =>
    intro pos fin
    cases c <;> simp only [List.cons_append, Describes, ih] <;> constructor
    all_goals first
      | (rintro ⟨h, m, h1, h2⟩; exact ⟨m, ⟨h, h1⟩, h2⟩)
      | (rintro ⟨m, ⟨h, h1⟩, h2⟩; exact ⟨h, m, h1, h2⟩)
      | exact id

theorem marks_append (a b : List Cmd) : ∀ pos, marks pos (a ++ b) = marks pos a ++ marks (pos + sizes a) b := by
  induction a with
  | nil => intro pos; simp [marks, sizes]
  | cons c cs ih =>
    intro pos
    cases c <;> simp [marks, ih, sizes, Cmd.size, Nat.add_assoc]

theorem describes_nops {p : Pair} {pre : List UInt8} {ns : List Cmd} (h : ∀ x ∈ ns, x = nop) :
    ∀ {pos fin : Nat}, pos ≤ p.bytes.length → (Describes p pre pos ns fin ↔ pos = fin) := by
  induction ns with
  | nil => intro pos fin _; simp [Describes]
  | cons c cs ih =>
    intro pos fin hp
    have hc := h c (by simp)
    subst hc
    simp only [nop, Describes, Nat.add_zero, lzCopy]
    rw [ih (fun x hx => h x (by simp [hx])) hp]
    exact ⟨fun h => h.2, fun h => ⟨⟨by omega, hp, trivial⟩, h⟩⟩

theorem nops_sizes {ns : List Cmd} (h : ∀ x ∈ ns, x = nop) : sizes ns = 0 := by
  induction ns with
  | nil => rfl
  | cons c cs ih =>
    rw [h c (by simp)]
    simp only [sizes, nop, Cmd.size]
    rw [ih (fun x hx => h x (by simp [hx]))]

theorem nops_marks {ns : List Cmd} (h : ∀ x ∈ ns, x = nop) (pos : Nat) : marks pos ns = [] := by
  induction ns with
  | nil => rfl
  | cons c cs ih =>
    rw [h c (by simp)]
    simp only [nop, marks, Nat.add_zero]
    exact ih (fun x hx => h x (by simp [hx]))

theorem describes_le {p : Pair} {pre : List UInt8} {cs : List Cmd} :
    ∀ {pos fin : Nat}, pos ≤ p.bytes.length → Describes p pre pos cs fin → fin ≤ p.bytes.length := by
  induction cs with
  | nil => intro pos fin h0 h; simp only [Describes] at h; omega
  | cons c cs ih =>
    intro pos fin h0 h
    cases c <;> simp only [Describes] at h
    · exact ih h.1.2.1 h.2
    · exact ih h.1.2.1 h.2
    · exact ih h.1.1 h.2
    · exact ih h0 h

/-- A literal within one piece is found. -/
theorem fetch_some {p : Pair} (hp : p.Adjacent) {off len : Nat} (h : off + len ≤ p.bytes.length)
    (h1 : off + len ≤ p.d0.length ∨ p.d0.length ≤ off) :
    p.fetch off len = some ((p.bytes.drop off).take len) := by
  obtain ⟨h0, h2⟩ := hp
  unfold Pair.fetch Pair.bytes at *
  rw [h0, h2]
  rw [List.length_append] at h
  by_cases hc : off ≥ p.d0.length
  · rw [if_pos hc, if_pos (by omega), List.drop_append, List.drop_of_length_le hc, List.nil_append]
  · rw [if_neg hc, if_pos (by omega)]
    rw [List.drop_append_of_le_length (by omega), List.take_append_of_le_length (by
      rw [List.length_drop]; omega)]
    rfl

/-- What the commands stand for. -/
theorem describes_expand {p : Pair} (hp : p.Adjacent) {pre : List UInt8} {cs : List Cmd} :
    ∀ {pos fin : Nat}, Describes p pre pos cs fin →
      ∃ t, p.thawAll cs = some t ∧ expand (pre ++ p.bytes.take pos) t = pre ++ p.bytes.take fin := by
  induction cs with
  | nil => intro pos fin h; simp only [Describes] at h; exact ⟨[], rfl, by rw [h]; rfl⟩
  | cons c cs ih =>
    intro pos fin h
    cases c with
    | lit off len =>
      simp only [Describes] at h
      obtain ⟨⟨rfl, h1, h2⟩, h3⟩ := h
      obtain ⟨t, e, h⟩ := ih h3
      refine ⟨.lit ((p.bytes.drop off).take len) :: t, by simp only [Pair.thawAll, Pair.thaw, fetch_some hp h1 h2, Option.map_some,
        Option.bind_some, e], ?_⟩
      simp only [expand, List.foldl_cons, applyCmd] at h ⊢
      rw [List.append_assoc, ← List.take_add, h]
    | copy d n =>
      simp only [Describes] at h
      obtain ⟨⟨-, -, h2⟩, h3⟩ := h
      obtain ⟨t, e, h⟩ := ih h3
      refine ⟨.copy d n :: t, by simp only [Pair.thawAll, Pair.thaw, Option.map_some, Option.bind_some, e], ?_⟩
      simp only [expand, List.foldl_cons, applyCmd] at h ⊢
      rw [h2, h]
    | dict w f =>
      simp only [Describes] at h
      obtain ⟨⟨-, h2⟩, h3⟩ := h
      obtain ⟨t, e, h⟩ := ih h3
      refine ⟨.dict w f :: t, by simp only [Pair.thawAll, Pair.thaw, Option.map_some, Option.bind_some, e], ?_⟩
      simp only [expand, List.foldl_cons, applyCmd] at h ⊢
      rw [List.append_assoc, h2, h]
    | other g =>
      simp only [Describes] at h
      obtain ⟨t, e, h⟩ := ih h
      refine ⟨.other :: t, by simp only [Pair.thawAll, Pair.thaw, Option.map_some, Option.bind_some, e], ?_⟩
      simp only [expand, List.foldl_cons, applyCmd] at h ⊢
      exact h

/-- Dropping empty copies. -/
theorem describes_filter {p : Pair} {pre : List UInt8} {cs : List Cmd} :
    ∀ {pos fin : Nat}, Describes p pre pos cs fin →
      Describes p pre pos (cs.filter fun x => !isEmptyCopy x) fin := by
  induction cs with
  | nil => intro pos fin h; exact h
  | cons c cs ih =>
    intro pos fin h
    cases c with
    | copy d n =>
      cases n with
      | zero =>
        simp only [Describes] at h
        simp only [List.filter_cons, isEmptyCopy, Bool.not_true, Bool.false_eq_true, if_false]
        exact ih h.2
      | succ n =>
        simp only [Describes] at h
        simp only [List.filter_cons, isEmptyCopy, Bool.not_false, if_true]
        exact ⟨h.1, ih h.2⟩
    | _ =>
      simp only [Describes] at h
      simp only [List.filter_cons, isEmptyCopy, Bool.not_false, if_true, Describes]
      first
        | exact ⟨h.1, ih h.2⟩
        | exact ih h

theorem marks_filter (cs : List Cmd) : ∀ pos, marks pos (cs.filter fun x => !isEmptyCopy x) = marks pos cs := by
  induction cs with
  | nil => intro pos; rfl
  | cons c cs ih =>
    intro pos
    cases c with
    | copy d n =>
      cases n with
      | zero =>
        simp only [List.filter_cons, isEmptyCopy, Bool.not_true, Bool.false_eq_true, if_false, marks]
        exact ih pos
      | succ n =>
        simp only [List.filter_cons, isEmptyCopy, Bool.not_false, if_true, marks]
        exact ih _
    | _ =>
      simp only [List.filter_cons, isEmptyCopy, Bool.not_false, if_true, marks]
      first
        | exact ih _
        | exact congrArg _ (ih _)

theorem set_mid {α : Type} (a b : List α) (x y : α) (n : Nat) (h : n = a.length) :
    (a ++ x :: b).set n y = a ++ y :: b := by
  subst h
  simp

theorem get_mid {α : Type} (a b : List α) (x : α) (n : Nat) (h : n = a.length) :
    (a ++ x :: b)[n]? = some x := by
  subst h
  simp

/-- Distances of 30 bits. -/
def LruOk (l : Lru4) : Prop := l.d0 < 2 ^ 30 ∧ l.d1 < 2 ^ 30 ∧ l.d2 < 2 ^ 30 ∧ l.d3 < 2 ^ 30

theorem lruOk_init : LruOk Codec.Bk.init.dist := by unfold LruOk; decide

theorem lruOk_obs {l : Lru4} (h : LruOk l) {d : Nat} (hd : d < 2 ^ 30) : LruOk (obsDistance l d) := by
  obtain ⟨h0, h1, h2, h3⟩ := h
  unfold obsDistance
  split_ifs
  · exact ⟨hd, h0, h2, h3⟩
  · exact ⟨hd, h0, h1, h3⟩
  · exact ⟨hd, h0, h1, h2⟩
  · exact ⟨h0, h1, h2, h3⟩

theorem mnemonic_some {l : Lru4} (h : LruOk l) (d : Nat) : ∃ k, mnemonicCode l d = some k := by
  obtain ⟨h0, h1, h2, h3⟩ := h
  have hb := Codec.bkOk_init
  have := Codec.mnemonicCode_spec (b := { Codec.Bk.init with dist := l })
    ⟨hb.map, hb.cmap, hb.llen, hb.last4, h0, h1, h2, h3⟩ d
  obtain ⟨k, hk, -⟩ := this
  exact ⟨k, hk⟩

theorem preset_fits {e d : Nat} (h3 : 3 ≤ d) (hd : d < 2 ^ 30) : presetFits e d = true := by
  unfold presetFits
  split <;> simp <;> omega

/-- What holds before the command at `index` is looked at, `orig` being the commands given. -/
structure Inv (p : Pair) (pre : List UInt8) (orig : List Cmd) (index : Nat) (s : St) : Prop where
  /-- one command to merge into, then empty copies, then commands not touched -/
  form : ∃ done e nops, s.cmds = done ++ e :: (nops ++ orig.drop index) ∧ done.length = s.elig ∧
    index = done.length + 1 + nops.length ∧ ∀ x ∈ nops, x = nop
  /-- the commands stand for the input -/
  desc : Describes p pre 0 s.cmds p.bytes.length
  /-- the others are where they were -/
  marks : marks 0 s.cmds = marks 0 orig
  /-- distances fit -/
  lru : LruOk s.lru

theorem describes_copy_lt {p : Pair} {pre : List UInt8} {cs : List Cmd} {pos fin : Nat}
    (h : Describes p pre pos cs fin) {d n : Nat} (hm : Cmd.copy d n ∈ cs) : d < 2 ^ 30 := by
  obtain ⟨a, b, rfl⟩ := List.append_of_mem hm
  obtain ⟨m, -, h2⟩ := describes_append.1 h
  simp only [Describes] at h2
  exact h2.1.1

theorem thaw_of_mem {p : Pair} (hp : p.Adjacent) {pre : List UInt8} {cs : List Cmd} {pos fin : Nat}
    (h : Describes p pre pos cs fin) {c : Cmd} (hm : c ∈ cs) : (p.thaw c).isSome = true := by
  obtain ⟨a, b, rfl⟩ := List.append_of_mem hm
  obtain ⟨m, -, h2⟩ := describes_append.1 h
  cases c with
  | lit off len =>
    simp only [Describes] at h2
    obtain ⟨⟨rfl, h3, h4⟩, -⟩ := h2
    simp [Pair.thaw, fetch_some hp h3 h4]
  | _ => rfl

/-- Some estimate or some coding reports an error. -/
def Complains (o : Oracle) : Prop := ∃ i, o.cheaper i = none ∨ o.codingFails i = true

/-- Coding a command of the list does not crash. -/
theorem code_cases {o : Oracle} {p : Pair} (hp : p.Adjacent) {pre : List UInt8} {cs : List Cmd}
    {pos fin : Nat} (h : Describes p pre pos cs fin) {c : Cmd} (hm : c ∈ cs) {l : Lru4} (hl : LruOk l)
    (i : Nat) : (code o p i c l = .err ∧ Complains o) ∨ ∃ l', code o p i c l = .ok l' ∧ LruOk l' := by
  unfold code
  rw [if_pos (thaw_of_mem hp h hm)]
  by_cases hf : o.codingFails i = true
  · exact Or.inl ⟨by rw [if_pos hf], i, Or.inr hf⟩
  · rw [if_neg hf]
    refine Or.inr ⟨_, rfl, ?_⟩
    cases c with
    | copy d n => exact lruOk_obs hl (describes_copy_lt h hm)
    | _ => exact hl

/-- Moving on. -/
theorem stepCommand_cases {o : Oracle} {p : Pair} (hp : p.Adjacent) {pre : List UInt8} {orig : List Cmd}
    {index : Nat} {s : St} (h : Inv p pre orig index s) (hi : index < orig.length) {e : Cmd}
    (he : s.cmds[s.elig]? = some e) :
    (stepCommand o p s e index = .err ∧ Complains o) ∨
      ∃ s', stepCommand o p s e index = .ok s' ∧ Inv p pre orig (index + 1) s' := by
  have hmem : e ∈ s.cmds := List.mem_of_getElem? he
  unfold stepCommand
  rcases code_cases (o := o) hp h.desc hmem h.lru s.elig with ⟨h1, hco⟩ | ⟨l, h1, hl⟩
  · exact Or.inl ⟨by rw [h1]; rfl, hco⟩
  · refine Or.inr ⟨⟨s.cmds, index, l⟩, by rw [h1]; rfl, ⟨?_, h.desc, h.marks, hl⟩⟩
    obtain ⟨done, e', nops, hc, hd, hx, hn⟩ := h.form
    refine ⟨done ++ e' :: nops, orig[index], [], ?_, ?_, ?_, by simp⟩
    · rw [hc, List.drop_eq_getElem_cons hi]
      simp
    · simp; omega
    · simp; omega

/-- Merging. -/
theorem merge_inv {p : Pair} {pre : List UInt8} {orig : List Cmd} {index : Nat} {s : St}
    (h : Inv p pre orig index s) (hi : index < orig.length) {off len : Nat}
    (he : s.cmds[s.elig]? = some (.lit off len)) {x : Cmd} (hx : s.cmds[index]? = some x) (n : Nat)
    (hsz : x.size = n) (hlit : ∀ w f, x ≠ .dict w f) (hoth : ∀ t, x ≠ .other t)
    (hspan : ¬ (off < p.d0.length ∧ off + len + n > p.d0.length)) :
    Inv p pre orig (index + 1) (merge s off (len + n) index) := by
  obtain ⟨done, e', nops, hc, hd, hxx, hn⟩ := h.form
  have hdesc := h.desc
  have hmarks := h.marks
  rw [List.drop_eq_getElem_cons hi] at hc
  have he' : e' = .lit off len := by
    rw [hc, get_mid _ _ _ _ hd.symm] at he
    simpa using he
  have hc2 : s.cmds = (done ++ e' :: nops) ++ orig[index] :: orig.drop (index + 1) := by
    rw [hc]; simp
  have hidx : index = (done ++ e' :: nops).length := by simp; omega
  have hx' : orig[index] = x := by
    rw [hc2, get_mid _ _ _ _ hidx] at hx
    simpa using hx
  subst he'
  rw [hx'] at hc hc2
  have hnew : (merge s off (len + n) index).cmds =
      done ++ .lit off (len + n) :: (nops ++ nop :: orig.drop (index + 1)) := by
    simp only [merge]
    rw [hc, set_mid _ _ _ _ _ hd.symm]
    have : done ++ Cmd.lit off (len + n) :: (nops ++ x :: orig.drop (index + 1)) =
        (done ++ Cmd.lit off (len + n) :: nops) ++ x :: orig.drop (index + 1) := by simp
    rw [this, set_mid _ _ _ _ _ (by simp; omega)]
    simp
  have hn' : ∀ y ∈ nops ++ [nop], y = nop := by
    intro y hy
    rcases List.mem_append.1 hy with hy | hy
    · exact hn y hy
    · simpa using hy
  -- positions
  rw [hc] at hdesc
  obtain ⟨m, hd1, hd2⟩ := describes_append.1 hdesc
  simp only [Describes] at hd2
  obtain ⟨⟨rfl, hle, hone⟩, hd3⟩ := hd2
  obtain ⟨m2, hd4, hd5⟩ := describes_append.1 hd3
  have hm2 := (describes_nops hn hle).1 hd4
  subst hm2
  have hrest : off + len + n ≤ p.bytes.length ∧
      Describes p pre (off + len + n) (orig.drop (index + 1)) p.bytes.length := by
    cases x with
    | lit o' l' =>
      simp only [Describes, Cmd.size] at hd5 hsz
      rw [← hsz]
      exact ⟨hd5.1.2.1, hd5.2⟩
    | copy d k =>
      simp only [Describes, Cmd.size] at hd5 hsz
      rw [← hsz]
      exact ⟨hd5.1.2.1, hd5.2⟩
    | dict w f => exact absurd rfl (hlit w f)
    | other t => exact absurd rfl (hoth t)
  refine ⟨⟨done, .lit off (len + n), nops ++ [nop], ?_, hd, ?_, hn'⟩, ?_, ?_, h.lru⟩
  · rw [hnew]; simp
  · simp; omega
  · rw [hnew]
    refine describes_append.2 ⟨off, hd1, ?_⟩
    simp only [Describes]
    refine ⟨⟨trivial, by omega, by omega⟩, ?_⟩
    have : nops ++ nop :: orig.drop (index + 1) = (nops ++ [nop]) ++ orig.drop (index + 1) := by simp
    rw [this, ← Nat.add_assoc]
    exact describes_append.2 ⟨off + len + n, (describes_nops hn' hrest.1).2 rfl, hrest.2⟩
  · rw [← hmarks, hnew, hc]
    have e1 : nops ++ nop :: orig.drop (index + 1) = (nops ++ [nop]) ++ orig.drop (index + 1) := by simp
    rw [marks_append, marks_append]
    congr 1
    simp only [marks]
    rw [e1, marks_append (nops ++ [nop]), nops_marks hn', nops_sizes hn', marks_append nops, nops_marks hn,
      nops_sizes hn]
    simp only [List.nil_append, Nat.add_zero]
    cases x with
    | lit o' l' =>
      simp only [Cmd.size] at hsz
      simp only [marks, hsz, Nat.add_assoc]
    | copy d k =>
      simp only [Cmd.size] at hsz
      simp only [marks, hsz, Nat.add_assoc]
    | dict w f => exact absurd rfl (hlit w f)
    | other t => exact absurd rfl (hoth t)

/-- One pass of the loop. -/
theorem step_cases {o : Oracle} {p : Pair} (hp : p.Adjacent) {pre : List UInt8} {orig : List Cmd}
    (debug : Bool) (c : Cache) {index : Nat} {s : St} (h : Inv p pre orig index s)
    (hi : index < orig.length) :
    (step debug o p c s index = .err ∧ Complains o) ∨
      (∃ s', step debug o p c s index = .ok s' ∧ Inv p pre orig (index + 1) s') ∨
      (step debug o p c s index = .panic ∧ debug = true ∧ ∃ d n, .copy d n ∈ orig ∧ d < 3) := by
  obtain ⟨done, e, nops, hc, hd, hx, hn⟩ := h.form
  have he : s.cmds[s.elig]? = some e := by rw [hc, get_mid _ _ _ _ hd.symm]
  have hc2 : s.cmds = (done ++ e :: nops) ++ orig[index] :: orig.drop (index + 1) := by
    rw [hc, List.drop_eq_getElem_cons hi]; simp
  obtain ⟨x, hxo⟩ : ∃ x, x = orig[index] := ⟨_, rfl⟩
  have hxm : x ∈ orig := by rw [hxo]; exact List.getElem_mem hi
  have hget : s.cmds[index]? = some x := by
    rw [hc2, get_mid _ _ _ _ (by simp; omega), hxo]
  have hxs : x ∈ s.cmds := List.mem_of_getElem? hget
  have hstep := stepCommand_cases (o := o) hp h hi he
  have lift : ((stepCommand o p s e index = .err ∧ Complains o) ∨
      ∃ s', stepCommand o p s e index = .ok s' ∧ Inv p pre orig (index + 1) s') →
      step debug o p c s index = stepCommand o p s e index →
      (step debug o p c s index = .err ∧ Complains o) ∨
      (∃ s', step debug o p c s index = .ok s' ∧ Inv p pre orig (index + 1) s') ∨
      (step debug o p c s index = .panic ∧ debug = true ∧ ∃ d n, .copy d n ∈ orig ∧ d < 3) := by
    intro a b
    rw [b]
    rcases a with a | a
    · exact Or.inl a
    · exact Or.inr (Or.inl a)
  cases e with
  | lit off len =>
    -- where the literal and the next command are
    have hdesc := h.desc
    rw [hc] at hdesc
    obtain ⟨m, -, hd2⟩ := describes_append.1 hdesc
    simp only [Describes] at hd2
    obtain ⟨⟨rfl, hle, hone⟩, hd3⟩ := hd2
    obtain ⟨m2, hd4, hd5⟩ := describes_append.1 hd3
    have hm2 := (describes_nops hn hle).1 hd4
    subst hm2
    rw [List.drop_eq_getElem_cons hi, ← hxo] at hd5
    cases x with
    | lit off' len' =>
      simp only [Describes] at hd5
      obtain ⟨⟨rfl, -, -⟩, -⟩ := hd5
      by_cases hsp : off < p.d0.length ∧ off + len + len' > p.d0.length
      · exact lift hstep (by simp only [step, he, hget]; rw [if_pos hsp])
      · refine Or.inr (Or.inl ⟨merge s off (len + len') index, ?_, ?_⟩)
        · simp only [step, he, hget]
          rw [if_neg hsp, if_pos trivial]
        · exact merge_inv h hi he hget len' rfl (by simp) (by simp) hsp
    | copy d n =>
      simp only [Describes] at hd5
      obtain ⟨⟨hdl, hle2, -⟩, -⟩ := hd5
      have hs : step debug o p c s index = (shouldMerge debug o p c s.lru off len d n index).bind fun b =>
          if b = true ∧ ¬ (off < p.d0.length ∧ off + len + n > p.d0.length) then
            .ok (merge s off (len + n) index)
          else stepCommand o p s (.lit off len) index := by simp only [step, he, hget]
      have hok : ∀ b, shouldMerge debug o p c s.lru off len d n index = .ok b →
          (step debug o p c s index = .err ∧ Complains o) ∨
          (∃ s', step debug o p c s index = .ok s' ∧ Inv p pre orig (index + 1) s') ∨
          (step debug o p c s index = .panic ∧ debug = true ∧ ∃ d n, .copy d n ∈ orig ∧ d < 3) := by
        intro b hb
        by_cases hcond : b = true ∧ ¬ (off < p.d0.length ∧ off + len + n > p.d0.length)
        · refine Or.inr (Or.inl ⟨merge s off (len + n) index, ?_, ?_⟩)
          · rw [hs, hb]
            simp only [Out.bind]
            rw [if_pos hcond]
          · exact merge_inv h hi he hget n rfl (by simp) (by simp) hcond.2
        · refine lift hstep ?_
          rw [hs, hb]
          simp only [Out.bind]
          rw [if_neg hcond]
      by_cases hw : off + len + n > p.o0 + p.d0.length ∧ off < p.o0 + p.d0.length
      · exact hok false (by unfold shouldMerge; rw [if_pos hw])
      · obtain ⟨k, hk⟩ := mnemonic_some h.lru d
        by_cases hpan : debug = true ∧ k = 15 ∧ (c.hit index).all (presetFits · d) = false
        · refine Or.inr (Or.inr ⟨?_, hpan.1, d, n, hxm, ?_⟩)
          · rw [hs]
            unfold shouldMerge
            rw [if_neg hw]
            simp only [hk]
            rw [if_pos hpan]
            rfl
          · by_contra h3
            have h4 := hpan.2.2
            cases hh : c.hit index with
            | none => rw [hh] at h4; simp at h4
            | some e =>
              rw [hh] at h4
              simp only [Option.all_some] at h4
              rw [preset_fits (by omega) hdl] at h4
              simp at h4
        · have hf1 : (p.fetch off (len + n)).isSome := by
            rw [fetch_some hp (by omega) (by rw [hp.1] at hw; omega)]
            rfl
          have hf2 : (p.fetch off len).isSome := by
            rw [fetch_some hp hle hone]; rfl
          have hsm : shouldMerge debug o p c s.lru off len d n index =
              match o.cheaper index with
              | some b => .ok b
              | none => .err := by
            unfold shouldMerge
            rw [if_neg hw]
            simp only [hk]
            rw [if_neg hpan, if_pos ⟨hf1, hf2⟩]
            cases o.cheaper index <;> rfl
          cases hch : o.cheaper index with
          | none =>
            rw [hch] at hsm
            exact Or.inl ⟨by rw [hs, hsm]; rfl, index, Or.inl hch⟩
          | some b =>
            rw [hch] at hsm
            exact hok b hsm
    | dict w f => exact lift hstep (by simp only [step, he, hget])
    | other t => exact lift hstep (by simp only [step, he, hget])
  | copy d n => exact lift hstep (by simp only [step, he, hget])
  | dict w f => exact lift hstep (by simp only [step, he, hget])
  | other t => exact lift hstep (by simp only [step, he, hget])

/-- The whole loop. -/
theorem loop_cases {o : Oracle} {p : Pair} (hp : p.Adjacent) {pre : List UInt8} {orig : List Cmd}
    (debug : Bool) (c : Cache) (k : Nat) : ∀ {index : Nat} {s : St}, Inv p pre orig index s →
    index + k = orig.length →
    (loop debug o p c k index s = .err ∧ Complains o) ∨
      (∃ s', loop debug o p c k index s = .ok s' ∧ Inv p pre orig (index + k) s') ∨
      (loop debug o p c k index s = .panic ∧ debug = true ∧ ∃ d n, .copy d n ∈ orig ∧ d < 3) := by
  induction k with
  | zero => intro index s h _; exact Or.inr (Or.inl ⟨s, rfl, h⟩)
  | succ k ih =>
    intro index s h hk
    rcases step_cases (o := o) hp debug c h (by omega) with ⟨h1, hco⟩ | ⟨s', h1, h2⟩ | ⟨h1, h2⟩
    · exact Or.inl ⟨by simp only [loop, h1, Out.bind], hco⟩
    · have := ih h2 (by omega)
      have e : loop debug o p c (k + 1) index s = loop debug o p c k (index + 1) s' := by
        simp only [loop, h1, Out.bind]
      rw [e]
      rw [show index + (k + 1) = index + 1 + k by omega]
      exact this
    · exact Or.inr (Or.inr ⟨by simp only [loop, h1, Out.bind], h2⟩)

theorem codeRest_cases {o : Oracle} {p : Pair} (hp : p.Adjacent) {pre : List UInt8} {all : List Cmd}
    {pos fin : Nat} (h : Describes p pre pos all fin) (cs : List Cmd) :
    ∀ (i : Nat) (l : Lru4), (∀ c ∈ cs, c ∈ all) → LruOk l →
      (codeRest o p i cs l = .err ∧ Complains o) ∨ codeRest o p i cs l = .ok () := by
  induction cs with
  | nil => intro i l _ _; exact Or.inr rfl
  | cons c cs ih =>
    intro i l hm hl
    rcases code_cases (o := o) hp h (hm c (by simp)) hl i with ⟨h1, hco⟩ | ⟨l', h1, hl'⟩
    · exact Or.inl ⟨by simp only [codeRest, h1, Out.bind], hco⟩
    · have := ih (i + 1) l' (fun x hx => hm x (by simp [hx])) hl'
      simpa only [codeRest, h1, Out.bind] using this

/-! ### The hit list -/

theorem setOrigin_lru (c : Cache) (i o : Nat) : (c.setOrigin i o).lru = c.lru := by
  unfold Cache.setOrigin
  split <;> rfl

theorem forward_lru (c : Cache) (code j i : Nat) : (c.forward code j i).lru = c.lru := by
  have := setOrigin_lru c j i
  unfold Cache.forward
  simp only [Cache.lru] at *
  exact this

theorem push_lru {c : Cache} {cur : Lru4} (h : LruOk c.lru) {d : Nat} (hd : d < 2 ^ 30) (i : Nat) :
    LruOk (c.push cur d i).lru := by
  obtain ⟨h0, h1, h2, h3⟩ := h
  unfold Cache.push
  split_ifs
  · exact ⟨hd, h1, h2, h3⟩
  · exact ⟨hd, h0, h2, h3⟩
  · exact ⟨hd, h0, h1, h3⟩
  · exact ⟨hd, h0, h1, h2⟩

theorem fill_some (cs : List Cmd) : ∀ (c : Cache) (i : Nat), LruOk c.lru →
    (∀ d n, Cmd.copy d n ∈ cs → d < 2 ^ 30) → ∃ c', c.fill i cs = some c' := by
  induction cs with
  | nil => intro c i _ _; exact ⟨c, rfl⟩
  | cons x cs ih =>
    intro c i hl hm
    cases x with
    | copy d n =>
      obtain ⟨k, hk⟩ := mnemonic_some hl d
      have hd := hm d n (by simp)
      have hpop : ∃ c', c.populate d i = some c' ∧ LruOk c'.lru := by
        unfold Cache.populate
        rw [hk]
        refine ⟨_, rfl, push_lru ?_ hd i⟩
        split_ifs
        · rw [forward_lru]; exact hl
        · exact hl
      obtain ⟨c', e, hl'⟩ := hpop
      obtain ⟨c'', e'⟩ := ih c' (i + 1) hl' (fun d n h => hm d n (by simp [h]))
      exact ⟨c'', by simp only [Cache.fill, e, Option.bind_some, e']⟩
    | _ =>
      simp only [Cache.fill]
      exact ih c (i + 1) hl (fun d n h => hm d n (by simp [h]))

/-! ## C36 -/

/-- Everything the optimiser can answer for commands that describe the input. -/
theorem optimise_cases (debug : Bool) (o : Oracle) {p : Pair} (hp : p.Adjacent) {pre : List UInt8}
    {lru : Lru4} (hl : LruOk lru) {cmds : List Cmd} (hd : Describes p pre 0 cmds p.bytes.length) :
    (optimise debug o p lru cmds = .err ∧ Complains o) ∨
      (∃ out, optimise debug o p lru cmds = .ok out ∧ Describes p pre 0 out p.bytes.length ∧
        marks 0 out = marks 0 cmds) ∨
      (optimise debug o p lru cmds = .panic ∧ debug = true ∧ ∃ d n, .copy d n ∈ cmds ∧ d < 3) := by
  unfold optimise
  by_cases h0 : cmds.length = 0
  · rw [if_pos h0]
    exact Or.inr (Or.inl ⟨cmds, rfl, hd, rfl⟩)
  · rw [if_neg h0]
    obtain ⟨c, hc⟩ := fill_some cmds (Cache.new lru cmds.length) 0 hl
      (fun d n h => describes_copy_lt hd h)
    simp only [hc]
    have hinv : Inv p pre cmds 1 ⟨cmds, 0, Codec.Bk.init.dist⟩ := by
      refine ⟨⟨[], cmds[0], [], ?_, rfl, rfl, by simp⟩, hd, rfl, lruOk_init⟩
      simp only [List.nil_append]
      exact (List.drop_eq_getElem_cons (i := 0) (l := cmds) (by omega))
    rcases loop_cases (o := o) hp debug c (cmds.length - 1) hinv (by omega) with ⟨h1, hco⟩ | ⟨s, h1, h2⟩ | ⟨h1, h2⟩
    · exact Or.inl ⟨by simp only [h1, Out.bind], hco⟩
    · simp only [h1, Out.bind]
      rcases codeRest_cases (o := o) hp h2.desc (s.cmds.drop s.elig) s.elig s.lru
        (fun c hc => List.mem_of_mem_drop hc) h2.lru with ⟨h3, hco⟩ | h3
      · exact Or.inl ⟨by simp only [h3], hco⟩
      · refine Or.inr (Or.inl ⟨_, by simp only [h3], describes_filter h2.desc, ?_⟩)
        rw [marks_filter, h2.marks]
    · exact Or.inr (Or.inr ⟨by simp only [h1, Out.bind], h2⟩)

/-- **C36.**  Take commands that describe an input after the bytes `pre`.  Whatever the estimates answer,
the commands the optimiser returns expand to the same bytes as those it was given, namely `pre` followed
by the input; all their literals can be found; and the dictionary words and block switches are the same,
in the same order, each after the same number of bytes. -/
theorem optimised_same_bytes (debug : Bool) (o : Oracle) (p : Pair) (hp : p.Adjacent) (pre : List UInt8)
    (lru : Lru4) (hl : LruOk lru) (cmds out : List Cmd) (hd : Describes p pre 0 cmds p.bytes.length)
    (ho : optimise debug o p lru cmds = .ok out) :
    (p.thawAll out).map (expand pre) = some (pre ++ p.bytes) ∧
      (p.thawAll cmds).map (expand pre) = some (pre ++ p.bytes) ∧ marks 0 out = marks 0 cmds := by
  have key : ∀ cs, Describes p pre 0 cs p.bytes.length →
      (p.thawAll cs).map (expand pre) = some (pre ++ p.bytes) := by
    intro cs h
    obtain ⟨t, e, h⟩ := describes_expand hp h
    rw [e]
    simpa using h
  rcases optimise_cases debug o hp hl hd with ⟨h, -⟩ | ⟨out', h, h1, h2⟩ | ⟨h, -⟩
  · rw [h] at ho; cases ho
  · rw [h] at ho
    cases ho
    exact ⟨key _ h1, key _ hd, h2⟩
  · rw [h] at ho; cases ho

/-! ## C47 -/

/-- **C47, partial.**  On commands that describe an input the optimiser does not crash, whatever the
estimates answer, when arithmetic wraps, or when no copy has a distance below 3.  (Missing: builds that
check arithmetic and distances 1 and 2, for which it is false.) -/
theorem optimiser_no_crash_partial (debug : Bool) (o : Oracle) (p : Pair) (hp : p.Adjacent)
    (pre : List UInt8) (lru : Lru4) (hl : LruOk lru) (cmds : List Cmd)
    (hd : Describes p pre 0 cmds p.bytes.length)
    (hs : debug = true → ∀ d n, .copy d n ∈ cmds → 3 ≤ d) :
    optimise debug o p lru cmds ≠ .panic := by
  rcases optimise_cases debug o hp hl hd with ⟨h, -⟩ | ⟨out, h, -⟩ | ⟨-, h1, d, n, hm, h2⟩
  · rw [h]; simp
  · rw [h]; simp
  · have := hs h1 d n hm
    omega

/-- **C47, partial.**  If moreover neither an estimate nor the coder reports an error, the optimiser
answers. -/
theorem optimiser_answers_partial (o : Oracle) (p : Pair) (hp : p.Adjacent) (pre : List UInt8) (lru : Lru4)
    (hl : LruOk lru) (cmds : List Cmd) (hd : Describes p pre 0 cmds p.bytes.length)
    (h1 : ∀ i, (o.cheaper i).isSome) (h2 : ∀ i, o.codingFails i = false) :
    ∃ out, optimise false o p lru cmds = .ok out := by
  rcases optimise_cases false o hp hl hd with ⟨-, i, h | h⟩ | ⟨out, h, -⟩ | ⟨-, h, -⟩
  · have := h1 i
    rw [h] at this
    cases this
  · rw [h2 i] at h; cases h
  · exact ⟨out, h⟩
  · cases h

/-- The estimate that merges everything. -/
def always : Oracle := ⟨fun _ => some true, fun _ => false⟩

/-- An input of two pieces, and commands for it after four bytes. -/
def demoPair : Pair := ⟨[1, 2, 3, 1, 2, 3], 0, [7, 7, 7, 8, 8], 6⟩

/-- Two literals, a copy, a block switch, a literal at the start of the second piece, an overlapping
copy, a far copy into the bytes before the input, and an empty copy. -/
def demoCmds : List Cmd :=
  [.lit 0 2, .lit 2 1, .copy 3 3, .other 5, .lit 6 1, .copy 1 2, .copy 13 2, .copy 9 0]

example : demoPair.Adjacent := by unfold Pair.Adjacent; decide

/-- The hypotheses of C36 hold of it, and the commands change. -/
example : Describes demoPair [8, 8, 8, 9] 0 demoCmds demoPair.bytes.length ∧
    LruOk ⟨4, 11, 15, 16⟩ ∧
    optimise false always demoPair ⟨4, 11, 15, 16⟩ demoCmds = .ok [.lit 0 6, .other 5, .lit 6 5] := by
  refine ⟨?_, by unfold LruOk; decide, by decide +kernel⟩
  simp only [demoCmds, Describes]
  decide

/-- Commands that describe an input of ones. -/
def crashCmds : List Cmd :=
  [.copy 100 1, .lit 1 1, .copy 1 1, .copy 3 1]

/-- Its input. -/
def crashPair : Pair := ⟨[1, 1, 1, 1], 0, [], 4⟩

/-- **C47 is false of builds that check arithmetic.**  A literal, a copy with a new distance 1, and then
a copy whose distance 3 is coded relative to it: the optimiser computes `1 - 2` and panics. -/
theorem optimiser_crashes : ∃ (o : Oracle) (p : Pair) (pre : List UInt8) (lru : Lru4) (cmds : List Cmd),
    p.Adjacent ∧ LruOk lru ∧ Describes p pre 0 cmds p.bytes.length ∧
      optimise true o p lru cmds = .panic := by
  refine ⟨always, crashPair, List.replicate 100 1, ⟨4, 11, 15, 16⟩, crashCmds, ?_, ?_, ?_, by decide +kernel⟩
  · unfold Pair.Adjacent; decide
  · unfold LruOk; decide
  · simp only [crashCmds, Describes]
    decide +kernel

/-- Offsets that do not count from the start of the input would break the optimiser: it compares offsets
with the length of the first piece, so two literals on either side of the boundary are merged into one
that no piece contains.  (In the brotli crate the first piece has offset 0.) -/
theorem offset_pair_breaks :
    optimise false always ⟨[1, 2], 10, [3, 4], 12⟩ ⟨4, 11, 15, 16⟩ [.lit 10 2, .lit 12 2] = .panic := by
  decide +kernel

end Divans.Opt
