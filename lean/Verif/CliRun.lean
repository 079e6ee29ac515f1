import Verif.Cli
import Verif.FfiProps
import Verif.IoAnyProps
import Verif.CompLen

/-!
# The loops of the command line program: lemmas
-/

namespace Divans.Cli
open Divans.Io (Ev bufSize srcBytes Reached reached_step reached_new)
open Divans.Call (Serves Dec)
open Divans.Compressor Divans.Pipe
open Divans.Eng (Cfg)

theorem bufSize_pos (size : Nat) : 0 < bufSize size := by
  unfold bufSize
  split <;> omega

/-! ## Sink -/

/-- What the sink took is a beginning of what there was, and all of it if no error came; an error comes from the sink. -/
theorem drain_spec : ∀ (sink : List WEv) (bs : List UInt8),
    (drain sink bs).2.1 <+: bs ∧ (∀ e ∈ (drain sink bs).1, e ∈ sink) ∧
      ((drain sink bs).2.2 = true ∧ (drain sink bs).2.1 = bs ∨ (drain sink bs).2.2 = false ∧ .fail ∈ sink) := by
  intro sink
  induction sink with
  | nil =>
    intro bs
    cases bs <;> simp [drain]
  | cons e t ih =>
    intro bs
    cases bs with
    | nil => simp [drain]
    | cons b bs =>
      cases e with
      | interrupted =>
        obtain ⟨h1, h2, h3⟩ := ih (b :: bs)
        rw [drain]
        refine ⟨h1, fun x hx => List.mem_cons_of_mem _ (h2 x hx), ?_⟩
        rcases h3 with h3 | ⟨h3, h4⟩
        · exact .inl h3
        · exact .inr ⟨h3, List.mem_cons_of_mem _ h4⟩
      | fail => rw [drain]; exact ⟨List.nil_prefix, fun x hx => List.mem_cons_of_mem _ hx, .inr ⟨rfl, List.mem_cons_self⟩⟩
      | took n =>
        obtain ⟨h1, h2, h3⟩ := ih ((b :: bs).drop n)
        rw [drain]
        simp only
        refine ⟨?_, fun x hx => List.mem_cons_of_mem _ (h2 x hx), ?_⟩
        · obtain ⟨u, hu⟩ := h1
          exact ⟨u, by rw [List.append_assoc, hu, List.take_append_drop]⟩
        · rcases h3 with ⟨h3, h4⟩ | ⟨h3, h4⟩
          · exact .inl ⟨h3, by rw [h4, List.take_append_drop]⟩
          · exact .inr ⟨h3, List.mem_cons_of_mem _ h4⟩

/-! ## Source -/

/-- A source whose end is not in the middle. -/
def Whole (src : List Ev) : Prop := .data [] ∉ src

/-- Reading from a source whose end is not in the middle. -/
theorem fill_spec {place : Nat} (hp : 0 < place) : ∀ (src : List Ev), Whole src →
    ∃ src', (∀ x ∈ src', x = .fail → .fail ∈ src) ∧ Whole src' ∧
      ((∃ bs, fill place src = (src', .bytes bs) ∧ bs ≠ [] ∧ bs.length ≤ place ∧ srcBytes src = bs ++ srcBytes src') ∨
        fill place src = (src', .ended) ∧ srcBytes src = [] ∨ fill place src = (src', .failed) ∧ .fail ∈ src) := by
  intro src
  induction src with
  | nil => intro h; exact ⟨[], by simp, h, .inr (.inl ⟨by rw [fill, if_neg (by omega)], rfl⟩)⟩
  | cons e t ih =>
    intro h
    have ht : Whole t := fun h0 => h (List.mem_cons_of_mem _ h0)
    rw [fill.eq_def]
    simp only
    rw [if_neg (by omega)]
    cases e with
    | interrupted =>
      obtain ⟨src', h1, h2, h3⟩ := ih ht
      refine ⟨src', fun x hx hf => List.mem_cons_of_mem _ (h1 x hx hf), h2, ?_⟩
      rcases h3 with h3 | h3 | ⟨h3, h4⟩
      · exact .inl h3
      · exact .inr (.inl h3)
      · exact .inr (.inr ⟨h3, List.mem_cons_of_mem _ h4⟩)
    | fail => exact ⟨t, fun x hx hf => by simp, ht, .inr (.inr ⟨rfl, by simp⟩)⟩
    | data bs =>
      cases bs with
      | nil => exact absurd List.mem_cons_self h
      | cons b bs =>
        simp only
        by_cases hl : place < (b :: bs).length
        · rw [if_pos hl]
          refine ⟨_, ?_, ?_, .inl ⟨_, rfl, ?_, ?_, ?_⟩⟩
          · intro x hx hf
            rcases List.mem_cons.1 hx with h0 | h0
            · subst h0; cases hf
            · subst hf; exact List.mem_cons_of_mem _ h0
          · intro h0
            rcases List.mem_cons.1 h0 with h1 | h1
            · injection h1 with h1
              have := congrArg List.length h1
              rw [List.length_drop, List.length_nil] at this
              omega
            · exact ht h1
          · intro h0
            have := congrArg List.length h0
            rw [List.length_take, List.length_nil] at this
            omega
          · rw [List.length_take]; omega
          · rw [srcBytes, srcBytes, ← List.append_assoc, List.take_append_drop]
        · rw [if_neg hl]
          refine ⟨t, fun x hx hf => by subst hf; exact List.mem_cons_of_mem _ hx, ht, .inl ⟨_, rfl, ?_, ?_, ?_⟩⟩
          · intro h0
            have := congrArg List.length h0
            rw [List.length_take, List.length_nil, List.length_cons] at this
            omega
          · rw [List.length_take]; omega
          · rw [srcBytes, List.take_of_length_le (by omega)]

/-- Reading from any source: no byte is lost or made up. -/
theorem fill_bytes {place : Nat} : ∀ (src : List Ev) {src' : List Ev} {bs : List UInt8}, fill place src = (src', .bytes bs) →
    srcBytes src = bs ++ srcBytes src' := by
  intro src
  induction src with
  | nil =>
    intro src' bs h
    rw [fill] at h
    split at h <;> cases h
    rfl
  | cons e t ih =>
    intro src' bs h
    rw [fill.eq_def] at h
    simp only at h
    by_cases hp : place = 0
    · rw [if_pos hp] at h; cases h; rfl
    rw [if_neg hp] at h
    cases e with
    | interrupted => exact ih h
    | fail => cases h
    | data l =>
      cases l with
      | nil => cases h
      | cons b l =>
        simp only at h
        by_cases hl : place < (b :: l).length
        · rw [if_pos hl] at h
          cases h
          rw [srcBytes, srcBytes, ← List.append_assoc, List.take_append_drop]
        · rw [if_neg hl] at h
          cases h
          rw [srcBytes, List.take_of_length_le (by omega)]

/-! ## Decompressing a file -/

section
variable {dw : Nat → Nat → Nat → List UInt8} {file data tail missing : List UInt8} {skip : Bool}

/-- Fed a file with anything behind it, or a beginning of a file. -/
theorem unpackLoop_ok (hs : Serves dw file data) (hm : missing = [] ∨ tail = []) {cap size : Nat} (hc : 0 < cap) (hz : 0 < size) :
    ∀ (m : Nat) (s : Unpack) (total : List UInt8),
      2 * (srcBytes s.src).length + s.left.length + 2 * (data.length - total.length) + s.out.length = m →
      Reached dw skip (file ++ tail) (.live s.dec) (s.left ++ srcBytes s.src ++ missing) total → total = s.written ++ s.out →
      total <+: data → Whole s.src → s.out.length ≤ size →
      ∃ f0 s' e, (∀ n k, f0 ≤ n → f0 ≤ k → unpackLoop dw n cap size k s = some (s', e)) ∧
        (e = .ok ∧ missing = [] ∧ s'.written = data ∨ e = .noEnd ∧ missing ≠ [] ∧ s'.written <+: data ∨
          e = .ioErr ∧ s'.written <+: data ∧ (.fail ∈ s.src ∨ .fail ∈ s.sink)) := by
  intro m
  induction m using Nat.strong_induction_on with
  | _ m ih =>
    intro s total hme hr ht hpre hw hso
    obtain ⟨-, k1, r, e, hr', hu, -, hl, hp, hin, hout, hsu⟩ := reached_step hs hr s.left.length (size - s.out.length)
    have htake : (s.left ++ srcBytes s.src ++ missing).take s.left.length = s.left := by
      rw [List.append_assoc, List.take_left]
    rw [htake] at e hu hin
    have hdrop : (s.left ++ srcBytes s.src ++ missing).drop r.used = s.left.drop r.used ++ srcBytes s.src ++ missing := by
      rw [List.append_assoc, List.drop_append_of_le_length hu, List.append_assoc]
    rw [hdrop] at hr' hsu
    have hple := hp.length_le
    rw [List.length_append] at hple
    obtain ⟨d1, d2, d3⟩ := drain_spec s.sink (s.out ++ r.out)
    have hwr : s.written ++ (drain s.sink (s.out ++ r.out)).2.1 <+: data := by
      obtain ⟨u, hu1⟩ := d1
      refine List.IsPrefix.trans ⟨u, ?_⟩ hp
      rw [List.append_assoc, hu1, ht, List.append_assoc]
    cases hret : r.ret with
    | success =>
      obtain ⟨g1, g2⟩ := hsu hret
      have hmiss : missing = [] := by
        rcases hm with h | h
        · exact h
        · rw [h] at g2
          exact (List.append_eq_nil_iff.1 g2).2
      rcases d3 with ⟨d3, d4⟩ | ⟨d3, d4⟩
      · refine ⟨k1 + 1, ((Unpack.flushed ⟨r.dec, s.left.drop r.used, s.last, s.out ++ r.out, s.src, s.sink, s.written⟩).1), .ok, fun n k hn hk => ?_, .inl ⟨rfl, hmiss, ?_⟩⟩
        · obtain ⟨k, rfl⟩ : ∃ j, k = j + 1 := ⟨k - 1, by omega⟩
          rw [unpackLoop, e n (by omega)]
          simp only [hret, Unpack.flushed, d3, if_true]
        · simp only [Unpack.flushed, d4]
          rw [← g1, ht, List.append_assoc]
      · refine ⟨k1 + 1, ((Unpack.flushed ⟨r.dec, s.left.drop r.used, s.last, s.out ++ r.out, s.src, s.sink, s.written⟩).1), .ioErr, fun n k hn hk => ?_, .inr (.inr ⟨rfl, ?_, .inr d4⟩)⟩
        · obtain ⟨k, rfl⟩ : ∃ j, k = j + 1 := ⟨k - 1, by omega⟩
          rw [unpackLoop, e n (by omega)]
          simp only [hret, Unpack.flushed, d3, Bool.false_eq_true, if_false]
        · exact hwr
    | needsOutput =>
      have g1 := hout hret
      rcases d3 with ⟨d3, d4⟩ | ⟨d3, d4⟩
      · obtain ⟨f2, s', e', l1, l2⟩ := ih _ (by
            rw [← hme]
            show 2 * (srcBytes s.src).length + (s.left.drop r.used).length + 2 * (data.length - (total ++ r.out).length) + 0 < _
            rw [List.length_append, List.length_drop]
            omega)
          (Unpack.flushed ⟨r.dec, s.left.drop r.used, s.last, s.out ++ r.out, s.src, s.sink, s.written⟩).1
          (total ++ r.out) rfl hr' (by simp only [Unpack.flushed, d4, ht, List.append_nil, List.append_assoc]) hp hw
          (Nat.zero_le _)
        refine ⟨max k1 f2 + 1, s', e', fun n k hn hk => ?_, ?_⟩
        · obtain ⟨k, rfl⟩ : ∃ j, k = j + 1 := ⟨k - 1, by omega⟩
          rw [unpackLoop, e n (by omega)]
          simp only [hret]
          rw [if_pos (by exact d3)]
          exact l1 n k (by omega) (by omega)
        · rcases l2 with l2 | l2 | ⟨l2, l3, l4⟩
          · exact .inl l2
          · exact .inr (.inl l2)
          · refine .inr (.inr ⟨l2, l3, ?_⟩)
            rcases l4 with l4 | l4
            · exact .inl l4
            · exact .inr (d2 _ l4)
      · refine ⟨k1 + 1, ((Unpack.flushed ⟨r.dec, s.left.drop r.used, s.last, s.out ++ r.out, s.src, s.sink, s.written⟩).1), .ioErr, fun n k hn hk => ?_, .inr (.inr ⟨rfl, ?_, .inr d4⟩)⟩
        · obtain ⟨k, rfl⟩ : ∃ j, k = j + 1 := ⟨k - 1, by omega⟩
          rw [unpackLoop, e n (by omega)]
          simp only [hret, Unpack.flushed, d3, Bool.false_eq_true, if_false]
        · exact hwr
    | needsInput =>
      obtain ⟨g1, g2⟩ := hin hret
      have hleft : s.left.drop r.used = [] := by rw [g1, List.drop_length]
      have hwp : s.written <+: data := by rw [ht] at hpre; exact (List.prefix_append _ _).trans hpre
      obtain ⟨src', q1, q2, q3⟩ := fill_spec (place := cap - 0) (by omega) s.src hw
      rw [hleft, List.nil_append] at hr'
      rcases q3 with ⟨bs, q3, q4, q5, q6⟩ | ⟨q3, q4⟩ | ⟨q3, q4⟩
      · have hpos := List.length_pos_iff.2 q4
        obtain ⟨f2, s', e', l1, l2⟩ := ih _ (by
            rw [← hme, q6]
            show 2 * (srcBytes src').length + bs.length + 2 * (data.length - (total ++ r.out).length) + (s.out ++ r.out).length < _
            rw [List.length_append, List.length_append, List.length_append]
            omega)
          ⟨r.dec, bs, bs.length, s.out ++ r.out, src', s.sink, s.written⟩
          (total ++ r.out) rfl (by rw [q6] at hr'; exact hr') (by rw [ht, List.append_assoc]) hp q2
          (by show (s.out ++ r.out).length ≤ size; rw [List.length_append]; omega)
        refine ⟨max k1 f2 + 1, s', e', fun n k hn hk => ?_, ?_⟩
        · obtain ⟨k, rfl⟩ : ∃ j, k = j + 1 := ⟨k - 1, by omega⟩
          rw [unpackLoop, e n (by omega)]
          simp only [hret, hleft, if_true, q3, List.nil_append, Nat.zero_add]
          exact l1 n k (by omega) (by omega)
        · rcases l2 with l2 | l2 | ⟨l2, l3, l4⟩
          · exact .inl l2
          · exact .inr (.inl l2)
          · refine .inr (.inr ⟨l2, l3, ?_⟩)
            rcases l4 with l4 | l4
            · exact .inl (q1 _ l4 rfl)
            · exact .inr l4
      · have hmiss : missing ≠ [] := by
          intro h0
          rw [List.append_assoc, List.drop_left, q4, h0] at g2
          exact Nat.not_lt_zero _ g2
        refine ⟨k1 + 1, (⟨r.dec, s.left.drop r.used, s.last, s.out ++ r.out, src', s.sink, s.written⟩), .noEnd, fun n k hn hk => ?_, .inr (.inl ⟨rfl, hmiss, ?_⟩)⟩
        · obtain ⟨k, rfl⟩ : ∃ j, k = j + 1 := ⟨k - 1, by omega⟩
          rw [unpackLoop, e n (by omega)]
          simp only [hret, hleft, if_true, q3]
        · exact hwp
      · refine ⟨k1 + 1, (⟨r.dec, s.left.drop r.used, s.last, s.out ++ r.out, src', s.sink, s.written⟩), .ioErr, fun n k hn hk => ?_, .inr (.inr ⟨rfl, ?_, .inl q4⟩)⟩
        · obtain ⟨k, rfl⟩ : ∃ j, k = j + 1 := ⟨k - 1, by omega⟩
          rw [unpackLoop, e n (by omega)]
          simp only [hret, hleft, if_true, q3]
        · exact hwp

end

/-! ## Decompressing anything -/

/-- Whatever the bytes: how the loop ends, and what has been written. -/
theorem unpackLoop_any {dw : Nat → Nat → Nat → List UInt8} {n cap size : Nat} {skip : Bool} {whole : List UInt8} :
    ∀ (k : Nat) (s s' : Unpack) (e : Outcome) (rets : List Call.Ret),
      Io.Past dw n skip whole s.dec (s.left ++ srcBytes s.src) (s.written ++ s.out) rets →
      unpackLoop dw n cap size k s = some (s', e) →
      ∃ d rest out rets', Io.Past dw n skip whole d rest out rets' ∧ s'.written <+: out ∧
        (e = .ok → s'.written = out ∧ .success ∈ rets' ∧ rest = s'.left ++ srcBytes s'.src) := by
  intro k
  induction k with
  | zero => intro s s' e rets _ h; cases h
  | succ k ih =>
    intro s s' e rets hp h
    rw [unpackLoop] at h
    cases hd : s.dec.decode dw n s.left (size - s.out.length) with
    | none => rw [hd] at h; cases h
    | some x =>
      rw [hd] at h
      cases x with
      | fail => cases h; exact ⟨_, _, _, _, hp, List.prefix_append _ _, by simp⟩
      | panic => cases h; exact ⟨_, _, _, _, hp, List.prefix_append _ _, by simp⟩
      | ok r =>
        have hp' := hp.step hd
        rw [List.append_assoc] at hp'
        obtain ⟨d1, -, d3⟩ := drain_spec s.sink (s.out ++ r.out)
        have hpre : s.written ++ (drain s.sink (s.out ++ r.out)).2.1 <+: s.written ++ (s.out ++ r.out) :=
          (List.prefix_append_right_inj _).2 d1
        cases hret : r.ret with
        | success =>
          simp only [hret, Option.some.injEq, Prod.mk.injEq] at h
          obtain ⟨rfl, rfl⟩ := h
          refine ⟨_, _, _, _, hp', hpre, fun h0 => ?_⟩
          rcases d3 with ⟨d3, d4⟩ | ⟨d3, d4⟩
          · refine ⟨?_, by rw [hret]; simp, rfl⟩
            simp only [Unpack.flushed, d4]
          · simp only [Unpack.flushed, d3, Bool.false_eq_true, if_false] at h0
            cases h0
        | needsOutput =>
          simp only [hret] at h
          rcases d3 with ⟨d3, d4⟩ | ⟨d3, d4⟩
          · rw [if_pos (by exact d3)] at h
            refine ih _ _ _ (rets ++ [r.ret]) ?_ h
            simp only [Unpack.flushed, d4, List.append_nil]
            exact hp'
          · rw [if_neg (by simp only [Unpack.flushed, d3]; simp)] at h
            cases h
            exact ⟨_, _, _, _, hp', hpre, by simp⟩
        | needsInput =>
          simp only [hret] at h
          have hw : s.written <+: s.written ++ (s.out ++ r.out) := List.prefix_append _ _
          cases hf : fill (cap - if s.left.drop r.used = [] then 0 else s.last) s.src with
          | mk src' f =>
            rw [hf] at h
            cases f with
            | bytes bs =>
              simp only at h
              refine ih _ _ _ (rets ++ [r.ret]) ?_ h
              simp only
              rw [List.append_assoc, ← fill_bytes _ hf]
              exact hp'
            | ended => cases h; exact ⟨_, _, _, _, hp', hw, by simp⟩
            | failed => cases h; exact ⟨_, _, _, _, hp', hw, by simp⟩

theorem stuck_long {w : Nat} {h x rest : List UInt8} {d : Dec} (hg : Frame.GoodHeader h w) (hd : Call.Stuck h x d rest) :
    x.length + 1 ≤ rest.length := by
  unfold Call.Stuck at hd
  cases hs : d.stage with
  | header got =>
    rw [hs] at hd
    obtain ⟨g1, g2⟩ := hd
    have := congrArg List.length g2
    rw [List.length_append, List.length_append, hg.1, List.length_cons, List.length_cons] at this
    omega
  | body s =>
    rw [hs] at hd
    obtain ⟨-, -, -, -, ⟨-, h0⟩ | ⟨-, h0⟩⟩ : Call.StuckBody x s rest := hd
    · rw [h0, List.length_cons, List.length_cons]; omega
    · rw [h0, List.length_cons]

theorem fill_none {place : Nat} (h : place = 0) (src : List Ev) : fill place src = (src, .bytes []) := by
  rw [fill.eq_def]
  cases src <;> simp [h]

/-- Behind a broken end marker, with as many bytes as the buffer holds: no end. -/
theorem unpackLoop_stuck {dw : Nat → Nat → Nat → List UInt8} {n cap size w : Nat} {h x : List UInt8} (hn : 1 ≤ n)
    (hg : Frame.GoodHeader h w) (hx : cap ≤ x.length + 1) : ∀ (k : Nat) (s : Unpack),
    Call.DLive s.dec → Call.Stuck h x s.dec (s.left ++ srcBytes s.src) → s.left.length ≤ s.last → s.last ≤ cap → Whole s.src → .fail ∉ s.src →
    unpackLoop dw n cap size k s = none := by
  intro k
  induction k with
  | zero => intro s _ _ _ _ _ _; rfl
  | succ k ih =>
    intro s hlive hst h1 h2 h3 h4
    obtain ⟨d', used, e, hst'⟩ := Call.stuck_decode (dw := dw) hg hst s.left.length (size - s.out.length)
    rw [List.take_left] at e
    have hkind := Call.decode_kind hlive (e n hn)
    have hu : used ≤ s.left.length := hkind.used
    rw [List.drop_append_of_le_length hu] at hst'
    have hlong := stuck_long hg hst'
    rw [List.length_append] at hlong
    rw [unpackLoop, e n hn]
    simp only
    obtain ⟨last, hlast⟩ : ∃ last, last = if s.left.drop used = [] then 0 else s.last := ⟨_, rfl⟩
    rw [← hlast]
    have g1 : (s.left.drop used).length ≤ last := by
      rw [hlast]
      split
      · rename_i h0; rw [h0]; exact Nat.le_refl _
      · rw [List.length_drop]; omega
    have g2 : last ≤ cap := by rw [hlast]; split <;> omega
    by_cases hp : cap - last = 0
    · rw [fill_none hp]
      simp only [List.append_nil, List.length_nil, Nat.add_zero]
      exact ih _ hkind.inv hst' g1 g2 h3 h4
    · obtain ⟨src', q1, q2, q3⟩ := fill_spec (place := cap - last) (by omega) s.src h3
      rcases q3 with ⟨bs, q3, q4, q5, q6⟩ | ⟨q3, q4⟩ | ⟨q3, q4⟩
      · rw [q3]
        simp only
        refine ih _ hkind.inv ?_ ?_ ?_ q2 (fun h0 => h4 (q1 _ h0 rfl))
        · simp only
          rw [List.append_assoc, ← q6]
          exact hst'
        · simp only [List.length_append]; omega
        · simp only; omega
      · rw [q4, List.length_nil] at hlong
        omega
      · exact absurd q4 h4

/-! ## Compressing -/

/-- The last piece of some bytes that are read in pieces of `size`. -/
def lastPiece (size : Nat) (bs : List UInt8) : List UInt8 := bs.drop ((bs.length - 1) / size * size)

/-- What the compressor is given while the source is read into a buffer of `size` bytes that holds `prev`: an
interrupted read gives it the buffer once more. -/
def heard (size : Nat) (prev : List UInt8) : List Ev → List UInt8
  | [] => []
  | .interrupted :: t => prev ++ heard size prev t
  | .fail :: _ => []
  | .data [] :: _ => []
  | .data (b :: bs) :: t => b :: bs ++ heard size (lastPiece size (b :: bs)) t

/-- Without interruptions the compressor is given what the source gives. -/
theorem heard_calm {size : Nat} : ∀ {src : List Ev} (prev : List UInt8), Whole src → .fail ∉ src →
    (.interrupted ∉ src ∨ prev = [] ∧ ∀ e ∈ src, ∀ bs, e ≠ .data bs) → heard size prev src = srcBytes src := by
  intro src
  induction src with
  | nil => intros; rfl
  | cons e t ih =>
    intro prev h1 h2 h3
    have t1 : Whole t := fun h0 => h1 (List.mem_cons_of_mem _ h0)
    have t2 : .fail ∉ t := fun h0 => h2 (List.mem_cons_of_mem _ h0)
    cases e with
    | fail => exact absurd List.mem_cons_self h2
    | interrupted =>
      rcases h3 with h3 | ⟨h3, h4⟩
      · exact absurd List.mem_cons_self h3
      · rw [heard, h3, List.nil_append]
        exact ih [] t1 t2 (.inr ⟨rfl, fun e he => h4 e (List.mem_cons_of_mem _ he)⟩)
    | data bs =>
      cases bs with
      | nil => exact absurd List.mem_cons_self h1
      | cons b bs =>
        rcases h3 with h3 | ⟨h3, h4⟩
        · rw [heard, srcBytes, ih _ t1 t2 (.inl fun h0 => h3 (List.mem_cons_of_mem _ h0))]
        · exact absurd rfl (h4 _ List.mem_cons_self _)

theorem lastPiece_small {size : Nat} {bs : List UInt8} (h : bs.length ≤ size) (hb : bs ≠ []) : lastPiece size bs = bs := by
  have := List.length_pos_iff.2 hb
  unfold lastPiece
  rw [Nat.div_eq_of_lt (by omega), Nat.zero_mul, List.drop_zero]

theorem lastPiece_drop {size : Nat} {bs : List UInt8} (hs : 0 < size) (h : size < bs.length) :
    lastPiece size (bs.drop size) = lastPiece size bs := by
  unfold lastPiece
  rw [List.drop_drop, List.length_drop]
  congr 1
  have : bs.length - 1 = (bs.length - size - 1) + size := by omega
  rw [this, Nat.add_div_right _ hs, Nat.succ_mul]
  omega

/-- A read in pieces. -/
theorem heard_cut {size : Nat} (hs : 0 < size) {bs : List UInt8} (h : size < bs.length) (prev : List UInt8) (t : List Ev) :
    heard size prev (.data bs :: t) = bs.take size ++ heard size (bs.take size) (.data (bs.drop size) :: t) := by
  obtain ⟨b, l, rfl⟩ := List.exists_cons_of_ne_nil (l := bs) (by intro h0; rw [h0] at h; cases h)
  obtain ⟨b', l', hl'⟩ := List.exists_cons_of_ne_nil (l := (b :: l).drop size) (by
    intro h0
    have := congrArg List.length h0
    rw [List.length_drop, List.length_nil] at this
    omega)
  rw [heard, hl', heard, ← hl', lastPiece_drop hs h, ← List.append_assoc, List.take_append_drop]

/-- The bytes of a source and its length. -/
def load (src : List Ev) : Nat := (srcBytes src).length + src.length

/-- What is ahead of the compressor. -/
def Pack.ahead {κ : Type} (size : Nat) (s : Pack κ) : List UInt8 :=
  s.buf.drop s.pos ++ heard size (if s.first then [] else s.buf) s.src

/-- The beginning of a round. -/
theorem begin_spec {κ : Type} {size : Nat} (hz : 0 < size) (s : Pack κ) (hp : s.pos ≤ s.buf.length) :
    (∃ s', s.turn.begin size = .again s' ∧ load s'.src < load s.src ∧ s'.ahead size = s.ahead size ∧
      s'.pos ≤ s'.buf.length ∧ s'.comp = s.comp ∧ s'.out = s.out ∧ s'.sink = s.sink ∧ s'.written = s.written ∧
      (.fail ∈ s'.src ↔ .fail ∈ s.src) ∧ (Whole s.src → Whole s'.src)) ∨
    (∃ s', s.turn.begin size = .done s' ∧ s.ahead size = [] ∧
      s'.comp = s.comp ∧ s'.out = s.out ∧ s'.sink = s.sink ∧ s'.written = s.written ∧ (Whole s.src → .fail ∉ s.src)) ∨
    (∃ s', s.turn.begin size = .ioErr s' ∧ .fail ∈ s.src) ∨
    (∃ s', s.turn.begin size = .go s' ∧ s'.pos < s'.buf.length ∧ s'.ahead size = s.ahead size ∧
      (load s'.src < load s.src ∨ s'.src = s.src ∧ s'.buf = s.buf ∧ s'.pos = s.pos) ∧
      s'.comp = s.comp ∧ s'.out = s.out ∧ s'.sink = s.sink ∧ s'.written = s.written ∧
      (.fail ∈ s'.src ↔ .fail ∈ s.src) ∧ (Whole s.src → Whole s'.src)) := by
  obtain ⟨comp, first, buf, pos, out, src, sink, written⟩ := s
  simp only at hp
  by_cases hlt : pos < buf.length
  · have ht : Pack.turn ⟨comp, first, buf, pos, out, src, sink, written⟩ = ⟨comp, first, buf, pos, out, src, sink, written⟩ := by
      unfold Pack.turn
      rw [if_neg (by simp only; omega)]
    refine .inr (.inr (.inr ⟨_, ?_, hlt, rfl, .inr ⟨rfl, rfl, rfl⟩, rfl, rfl, rfl, rfl, Iff.rfl, id⟩))
    rw [ht, Pack.begin, if_neg (by simp only; omega)]
  have he : pos = buf.length := by omega
  subst he
  -- everything was taken
  obtain ⟨prev, hprev⟩ : ∃ prev, prev = if first then [] else buf := ⟨_, rfl⟩
  have ht : Pack.turn ⟨comp, first, buf, buf.length, out, src, sink, written⟩ =
      ⟨comp, false, prev, prev.length, out, src, sink, written⟩ := by
    unfold Pack.turn
    cases first with
    | true => rw [if_pos (by simp), hprev]; rfl
    | false => rw [if_neg (by simp), hprev]; rfl
  have hah : Pack.ahead size ⟨comp, first, buf, buf.length, out, src, sink, written⟩ = heard size prev src := by
    unfold Pack.ahead
    simp only [List.drop_length, List.nil_append, hprev]
  rw [ht, hah, Pack.begin, if_pos rfl]
  cases src with
  | nil => exact .inr (.inl ⟨_, rfl, rfl, rfl, rfl, rfl, rfl, fun _ h => by cases h⟩)
  | cons e t =>
    cases e with
    | interrupted =>
      refine .inl ⟨_, rfl, ?_, ?_, Nat.zero_le _, rfl, rfl, rfl, rfl, ?_, fun h h0 => h (List.mem_cons_of_mem _ h0)⟩
      · simp only [load, srcBytes, List.length_cons]; omega
      · simp only [Pack.ahead, List.drop_zero, heard, Bool.false_eq_true, if_false]
      · simp only [List.mem_cons, reduceCtorEq, false_or]
    | fail => exact .inr (.inr (.inl ⟨_, rfl, by simp⟩))
    | data bs =>
      cases bs with
      | nil => exact .inr (.inl ⟨_, rfl, rfl, rfl, rfl, rfl, rfl, fun h => absurd List.mem_cons_self h⟩)
      | cons b bs =>
        refine .inr (.inr (.inr ⟨_, rfl, ?_, ?_, .inl ?_, rfl, rfl, rfl, rfl, ?_, ?_⟩))
        · simp only [List.length_take, List.length_cons]; omega
        · by_cases hl : size < (b :: bs).length
          · rw [heard_cut hz hl]
            simp only [Pack.ahead, List.drop_zero, if_pos hl, Bool.false_eq_true, if_false]
          · simp only [Pack.ahead, List.drop_zero, if_neg hl, Bool.false_eq_true, if_false]
            rw [List.take_of_length_le (by omega), heard, lastPiece_small (by omega) (by simp)]
        · by_cases hl : size < (b :: bs).length
          · show load (if size < (b :: bs).length then _ else _) < _
            rw [if_pos hl]
            simp only [load, srcBytes, List.length_append, List.length_drop, List.length_cons] at hl ⊢
            omega
          · show load (if size < (b :: bs).length then _ else _) < _
            rw [if_neg hl]
            simp only [load, srcBytes, List.length_append, List.length_cons]
            omega
        · by_cases hl : size < (b :: bs).length
          · simp only [if_pos hl, List.mem_cons, reduceCtorEq, false_or]
          · simp only [if_neg hl, List.mem_cons, reduceCtorEq, false_or]
        · intro hw h0
          by_cases hl : size < (b :: bs).length
          · simp only [if_pos hl] at h0
            rcases List.mem_cons.1 h0 with h1 | h1
            · injection h1 with h1
              have := congrArg List.length h1
              rw [List.length_drop, List.length_nil] at this
              omega
            · exact hw (List.mem_cons_of_mem _ h1)
          · simp only [if_neg hl] at h0
            exact hw (List.mem_cons_of_mem _ h0)

/-- What the program needs of its compressor.  `P c taken out`: after `taken` was taken and `out` given out; `Q` the same once
`flush` was called; `Fin taken out`: `out` is all. -/
structure Keeps {κ α β : Type} (t : Machine κ) (P Q : κ → List UInt8 → List UInt8 → Prop) (Fin : List UInt8 → List UInt8 → Prop)
    (lt : α → α → Prop) (mu : κ → α) (lt' : β → β → Prop) (rk : κ → β) : Prop where
  wf : WellFounded lt
  wf' : WellFounded lt'
  encode : ∀ c taken out inp room, P c taken out → inp ≠ [] → 0 < room →
    ∃ k c' n o code, (∀ fuel, k ≤ fuel → t.encode fuel c inp room = some (c', n, o, code)) ∧ n ≤ inp.length ∧
      P c' (taken ++ inp.take n) (out ++ o) ∧ (code = .needsInput ∨ code = .needsOutput) ∧ (1 ≤ n ∨ lt (mu c') (mu c))
  closing : ∀ c taken out, P c taken out → Q c taken out
  flush : ∀ c taken out room, Q c taken out → 0 < room →
    ∃ k c' o code, (∀ fuel, k ≤ fuel → t.flush fuel c room = some (c', o, code)) ∧
      Q c' taken (out ++ o) ∧ (code = .success ∧ Fin taken (out ++ o) ∨ code = .needsOutput ∧ lt' (rk c') (rk c))

section
variable {κ α β : Type} {t : Machine κ} {P Q : κ → List UInt8 → List UInt8 → Prop} {Fin : List UInt8 → List UInt8 → Prop}
  {lt : α → α → Prop} {mu : κ → α} {lt' : β → β → Prop} {rk : κ → β}

/-- The first loop ends, with everything given to the compressor and its output given to the sink, or with an error of
the source or the sink. -/
theorem packLoop_ok (hk : Keeps t P Q Fin lt mu lt' rk) {size : Nat} (hz : 0 < size) :
    ∀ (m : Nat × Nat × α) {s : Pack κ} {taken : List UInt8}, (load s.src, s.buf.length - s.pos, mu s.comp) = m →
      P s.comp taken s.written → s.out = [] → s.pos ≤ s.buf.length →
      ∃ f0 s' e, (∀ n k, f0 ≤ n → f0 ≤ k → packLoop t n size k s = some (s', e)) ∧
        (e = none ∧ s'.out = [] ∧ (.fail ∈ s'.sink → .fail ∈ s.sink) ∧ (Whole s.src → .fail ∉ s.src) ∧
            P s'.comp (taken ++ s.ahead size) s'.written ∨
          e = some .ioErr ∧ (.fail ∈ s.src ∨ .fail ∈ s.sink)) := by
  intro m
  have hwf : WellFounded (Prod.Lex (· < ·) (Prod.Lex (· < ·) lt) : Nat × Nat × α → Nat × Nat × α → Prop) :=
    WellFounded.prod_lex Nat.lt_wfRel.wf (WellFounded.prod_lex Nat.lt_wfRel.wf hk.wf)
  induction m using hwf.induction with
  | _ m ih =>
    intro s taken hm h hout hpos
    rcases begin_spec hz s hpos with ⟨s1, b1, b2, b3, b4, b5, b6, b7, b8, b9, b12⟩ | ⟨s1, b1, b2, b3, b4, b5, b6, b12⟩ | ⟨s1, b1, b2⟩ |
      ⟨s1, b1, b2, b3, b4, b5, b6, b7, b8, b9, b12⟩
    · have hlt : Prod.Lex (· < ·) (Prod.Lex (· < ·) lt) (load s1.src, s1.buf.length - s1.pos, mu s1.comp) m := by
        rw [← hm]
        exact Prod.Lex.left _ _ b2
      obtain ⟨f0, s', e, k1, k2⟩ := ih _ hlt rfl (by rw [b5, b8]; exact h) (by rw [b6]; exact hout) b4
      refine ⟨f0 + 1, s', e, fun n k hn hk => ?_, ?_⟩
      · obtain ⟨k, rfl⟩ : ∃ j, k = j + 1 := ⟨k - 1, by omega⟩
        rw [packLoop, b1]
        exact k1 n k (by omega) (by omega)
      · rw [b3, b7] at k2
        rcases k2 with ⟨k2, k3, k4, k5, k6⟩ | ⟨k2, k3⟩
        · exact .inl ⟨k2, k3, k4, fun hw h0 => k5 (b12 hw) (b9.2 h0), k6⟩
        · exact .inr ⟨k2, k3.imp_left b9.1⟩
    · refine ⟨1, s1, none, fun n k hn hk => ?_, .inl ⟨rfl, by rw [b4, hout], by rw [b5]; exact id, b12, ?_⟩⟩
      · obtain ⟨k, rfl⟩ : ∃ j, k = j + 1 := ⟨k - 1, by omega⟩
        rw [packLoop, b1]
      · rw [b2, List.append_nil, b3, b6]
        exact h
    · refine ⟨1, s1, some .ioErr, fun n k hn hk => ?_, .inr ⟨rfl, .inl b2⟩⟩
      obtain ⟨k, rfl⟩ : ∃ j, k = j + 1 := ⟨k - 1, by omega⟩
      rw [packLoop, b1]
    · rw [← b5, ← b8] at h
      rw [← b6] at hout
      obtain ⟨f1, c1, n1, o1, code, k1, hle, hp1, hcode, hpr⟩ := hk.encode _ _ _ (s1.buf.drop s1.pos) (size - 0) h (by
        intro h0
        have := congrArg List.length h0
        rw [List.length_drop, List.length_nil] at this
        omega) (by omega)
      rw [List.length_drop] at hle
      let s2 : Pack κ := { s1 with comp := c1, pos := s1.pos + n1, out := s1.out ++ o1 }
      have hpush : ∀ n, f1 ≤ n → s1.push t n size = (s2.flushed.1, if s2.flushed.2 then none else some .ioErr) := by
        intro n hn
        have hk := k1 n hn
        unfold Pack.push
        rw [if_neg (by omega), hout, List.length_nil, hk]
        rcases hcode with rfl | rfl <;> simp only [s2, hout]
      obtain ⟨e1, e2, e3⟩ := drain_spec s1.sink (s1.out ++ o1)
      rcases e3 with ⟨e3, e4⟩ | ⟨e3, e4⟩
      · have hlt : Prod.Lex (· < ·) (Prod.Lex (· < ·) lt)
            (load s2.flushed.1.src, s2.flushed.1.buf.length - s2.flushed.1.pos, mu s2.flushed.1.comp) m := by
          rw [← hm]
          show Prod.Lex (· < ·) (Prod.Lex (· < ·) lt) (load s1.src, s1.buf.length - (s1.pos + n1), mu c1) _
          rcases b4 with b4 | ⟨b4, b10, b11⟩
          · exact Prod.Lex.left _ _ b4
          · rw [b4, ← b10, ← b11, ← b5]
            refine Prod.Lex.right _ ?_
            by_cases hn : 1 ≤ n1
            · exact Prod.Lex.left _ _ (by omega)
            · have h0 : n1 = 0 := by omega
              subst h0
              rw [Nat.add_zero]
              refine Prod.Lex.right _ ?_
              rcases hpr with h | h
              · omega
              · exact h
        have hw : s2.flushed.1.written = s1.written ++ o1 := by
          show s1.written ++ (drain s1.sink (s1.out ++ o1)).2.1 = _
          rw [e4, hout, List.nil_append]
        obtain ⟨f2, s', e, l1, l2⟩ := ih _ hlt (s := s2.flushed.1) rfl (by rw [hw]; exact hp1) rfl (by
          show s1.pos + n1 ≤ s1.buf.length
          omega)
        refine ⟨max f1 f2 + 1, s', e, fun n k hn hk => ?_, ?_⟩
        · obtain ⟨k, rfl⟩ : ∃ j, k = j + 1 := ⟨k - 1, by omega⟩
          rw [packLoop, b1]
          simp only [hpush n (by omega)]
          rw [if_pos (by exact e3)]
          exact l1 n k (by omega) (by omega)
        · have hah : taken ++ (s1.buf.drop s1.pos).take n1 ++ s2.flushed.1.ahead size = taken ++ s.ahead size := by
            rw [← b3]
            show taken ++ (s1.buf.drop s1.pos).take n1 ++ (s1.buf.drop (s1.pos + n1) ++ _) =
              taken ++ (s1.buf.drop s1.pos ++ heard size (if s1.first then [] else s1.buf) s1.src)
            rw [← List.drop_drop, List.append_assoc, ← List.append_assoc (List.take _ _), List.take_append_drop]
            rfl
          rw [hah] at l2
          rcases l2 with ⟨q1, q2, q3, q5, q4⟩ | ⟨q1, q2⟩
          · refine .inl ⟨q1, q2, fun h0 => ?_, fun hw h0 => q5 (b12 hw) (b9.2 h0), q4⟩
            rw [← b7]
            exact e2 _ (q3 h0)
          · refine .inr ⟨q1, q2.imp b9.1 fun h0 => ?_⟩
            rw [← b7]
            exact e2 _ h0
      · refine ⟨f1 + 1, s2.flushed.1, some .ioErr, fun n k hn hk => ?_, .inr ⟨rfl, .inr (by rw [← b7]; exact e4)⟩⟩
        obtain ⟨k, rfl⟩ : ∃ j, k = j + 1 := ⟨k - 1, by omega⟩
        rw [packLoop, b1]
        simp only [hpush n (by omega)]
        rw [if_neg (by show ¬ (drain s1.sink (s1.out ++ o1)).2.2 = true; rw [e3]; simp)]

/-- The second loop ends, with the file complete, or with an error of the sink. -/
theorem packEnd_ok (hk : Keeps t P Q Fin lt mu lt' rk) {size : Nat} (hz : 0 < size) {taken : List UInt8} :
    ∀ (m : β) {s : Pack κ}, rk s.comp = m → Q s.comp taken s.written → s.out = [] →
      ∃ f0 s' e, (∀ n k, f0 ≤ n → f0 ≤ k → packEnd t n size k s = some (s', e)) ∧
        (e = .ok ∧ Fin taken s'.written ∨ e = .ioErr ∧ .fail ∈ s.sink) := by
  intro m
  induction m using hk.wf'.induction with
  | _ m ih =>
    intro s hm h hout
    obtain ⟨f1, c1, o1, code, k1, hq, k2⟩ := hk.flush _ _ _ (size - s.out.length) h (by rw [hout, List.length_nil]; omega)
    let s2 : Pack κ := { s with comp := c1, out := s.out ++ o1 }
    obtain ⟨e1, e2, e3⟩ := drain_spec s.sink (s.out ++ o1)
    rcases k2 with ⟨rfl, q1⟩ | ⟨rfl, hlt⟩
    · refine ⟨f1 + 1, s2.flushed.1, if s2.flushed.2 then .ok else .ioErr, fun n k hn hk => ?_, ?_⟩
      · obtain ⟨k, rfl⟩ : ∃ j, k = j + 1 := ⟨k - 1, by omega⟩
        rw [packEnd, k1 n (by omega)]
      · rcases e3 with ⟨e3, e4⟩ | ⟨e3, e4⟩
        · refine .inl ⟨if_pos e3, ?_⟩
          show Fin taken (s.written ++ (drain s.sink (s.out ++ o1)).2.1)
          rw [e4, hout, List.nil_append]
          exact q1
        · refine .inr ⟨if_neg ?_, e4⟩
          show ¬ (drain s.sink (s.out ++ o1)).2.2 = true
          rw [e3]; simp
    · rcases e3 with ⟨e3, e4⟩ | ⟨e3, e4⟩
      · obtain ⟨f2, s', e, l1, l2⟩ := ih (rk s2.flushed.1.comp) (hm ▸ hlt) (s := s2.flushed.1) rfl (by
            show Q c1 taken (s.written ++ (drain s.sink (s.out ++ o1)).2.1)
            rw [e4, hout, List.nil_append]
            exact hq) rfl
        refine ⟨max f1 f2 + 1, s', e, fun n k hn hk => ?_, ?_⟩
        · obtain ⟨k, rfl⟩ : ∃ j, k = j + 1 := ⟨k - 1, by omega⟩
          rw [packEnd, k1 n (by omega)]
          simp only
          rw [if_pos (by exact e3)]
          exact l1 n k (by omega) (by omega)
        · rcases l2 with l2 | ⟨l2, l3⟩
          · exact .inl l2
          · exact .inr ⟨l2, e2 _ l3⟩
      · refine ⟨f1 + 1, s2.flushed.1, .ioErr, fun n k hn hk => ?_, .inr ⟨rfl, e4⟩⟩
        obtain ⟨k, rfl⟩ : ∃ j, k = j + 1 := ⟨k - 1, by omega⟩
        rw [packEnd, k1 n (by omega)]
        simp only
        rw [if_neg (by show ¬ (drain s.sink (s.out ++ o1)).2.2 = true; rw [e3]; simp)]

/-- `compress_raw_inner` with any source and any sink. -/
theorem inner_any (hk : Keeps t P Q Fin lt mu lt' rk) {c : κ} (h0 : P c [] []) {size : Nat} (hz : 0 < size) (extra : List UInt8)
    (src : List Ev) (sink : List WEv) :
    ∃ f0 file e, (∀ n rounds, f0 ≤ n → f0 ≤ rounds → compressInner t n rounds c size extra src sink = some (file, e)) ∧
      (e = .ok ∧ (Whole src → .fail ∉ src) ∧ Fin (extra ++ heard size [] src) file ∨
        e = .ioErr ∧ (.fail ∈ src ∨ .fail ∈ sink)) := by
  let s0 : Pack κ := ⟨c, decide (extra ≠ []), extra, 0, [], src, sink, []⟩
  have hah : s0.ahead size = extra ++ heard size [] src := by
    show extra.drop 0 ++ heard size (if decide (extra ≠ []) then [] else extra) src = _
    by_cases h0 : extra = []
    · subst h0; rfl
    · rw [if_pos (by simpa using h0)]; rfl
  obtain ⟨f1, s1, e1, h1, h2⟩ := packLoop_ok hk hz _ (s := s0) rfl h0 rfl (Nat.zero_le _)
  rw [hah, List.nil_append] at h2
  rcases h2 with ⟨rfl, g2, g3, g5, g4⟩ | ⟨rfl, g2⟩
  · obtain ⟨f2, s2, e2, k1, k2⟩ := packEnd_ok hk hz _ rfl (hk.closing _ _ _ g4) g2
    refine ⟨max f1 f2, s2.written, e2, fun n k hn hk => ?_, ?_⟩
    · unfold compressInner
      rw [h1 n k (by omega) (by omega)]
      simp only
      rw [k1 n k (by omega) (by omega)]
      rfl
    · rcases k2 with ⟨rfl, q1⟩ | ⟨rfl, q1⟩
      · exact .inl ⟨rfl, g5, q1⟩
      · exact .inr ⟨rfl, .inr (g3 q1)⟩
  · refine ⟨f1, s1.written, .ioErr, fun n k hn hk => ?_, .inr ⟨rfl, g2⟩⟩
    unfold compressInner
    rw [h1 n k (by omega) (by omega)]

end

/-- The compressor with the internal choice of commands. -/
theorem plain_keeps {g : Cfg} (hpm : (Item.pm rawPm).Valid g.o g.dw g.ring) :
    Keeps (plain g.o g.dw)
      (fun c taken out => ∃ ops done fr, Pushing g c out ops taken done fr ∧ (taken.length ≤ 3 * g.ring - 2 → Once g ops))
      (fun c taken out => ∃ ops c0 done fr all pre, Pushing g c0 pre ops taken done fr ∧ (taken.length ≤ 3 * g.ring - 2 → Once g ops) ∧
        Closing g c out all ∧ RawCmd.Complete (List.replicate g.ring 0) ops taken all)
      (fun taken out => (taken.length ≤ 3 * g.ring - 2 → Restores g.dw out taken) ∧
        (Restores g.dw out taken → RawCmd.Fair g.ring taken.length)) lt5 Compressor.mu lt7 rank where
  wf := lt5_wf
  wf' := lt7_wf
  encode := by
    rintro c taken out inp room ⟨ops, done, fr, h, hcl⟩ hi hr
    obtain ⟨k, c', n, o, code, e, hq⟩ := encode_spec hpm h inp room
    obtain ⟨ops', done', fr', h', hch⟩ := hq.how
    refine ⟨k, c', n, o, code, e, hq.le, ⟨_, _, _, h', fun hl => ?_⟩, ?_, hq.progress hi hr⟩
    · rw [List.length_append, List.length_take, Nat.min_eq_left hq.le] at hl
      exact h.few (hcl (by omega)) hch (.inr ⟨hi, hl⟩)
    · rcases hq.cases with h | h
      · exact .inl h.1
      · exact .inr h.1
  closing := by
    rintro c taken out ⟨ops, done, fr, h, hcl⟩
    obtain ⟨all, h5, h6⟩ := h.closing
    exact ⟨ops, c, done, fr, all, out, h, hcl, h5, h6⟩
  flush := by
    rintro c taken out room ⟨ops, c0, done, fr, all, pre, h1, hcl, h2, h3⟩ hr
    obtain ⟨k, c', o, code, e, hq⟩ := flush_spec hpm h2 room
    refine ⟨k, c', o, code, e, ⟨ops, c0, done, fr, all, pre, h1, hcl, hq.ok, h3⟩, ?_⟩
    rcases hq.cases with ⟨q0, q1, q2, q3⟩ | ⟨q0, -, q1⟩
    · have hi := raw_restores_iff hpm h3 q1 q2 q3
      exact .inl ⟨q0, fun hl => hi.2 (hcl hl), fun hres => h1.fair (hi.1 hres)⟩
    · exact .inr ⟨q0, q1 hr⟩

end Divans.Cli
