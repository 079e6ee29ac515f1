import Verif.Mux
import Mathlib.Tactic.SplitIfs

/-!
# Facts about the buffers and cursors of the multiplexer
-/

namespace Divans.Mux

/-- The cursors of a buffer are in order and inside its memory. -/
def Buf.Ok (b : Buf) : Prop := b.start ≤ b.stop ∧ b.stop ≤ b.mem.length

instance (b : Buf) : Decidable b.Ok := by unfold Buf.Ok; infer_instance

theorem unread_length {b : Buf} (h : b.Ok) : b.unread.length = b.stop - b.start := by
  obtain ⟨h1, h2⟩ := h
  simp only [Buf.unread, List.length_take, List.length_drop]; omega

theorem writeAt_some {mem data : List UInt8} {at_ : Nat} (h : at_ + data.length ≤ mem.length) :
    writeAt mem at_ data = some (mem.take at_ ++ data ++ mem.drop (at_ + data.length)) := by
  rw [writeAt, if_pos h]

theorem writeAt_length {mem data mem' : List UInt8} {at_ : Nat}
    (h : writeAt mem at_ data = some mem') : mem'.length = mem.length := by
  unfold writeAt at h
  split_ifs at h with h1
  simp only [Option.some.injEq] at h
  subst h
  simp only [List.length_append, List.length_take, List.length_drop]; omega

theorem readAt_some {mem : List UInt8} {at_ n : Nat} (h : at_ + n ≤ mem.length) :
    readAt mem at_ n = some ((mem.drop at_).take n) := by rw [readAt, if_pos h]

/-- What is found after writing, from the start of the written bytes on. -/
theorem drop_write (mem data : List UInt8) (at_ : Nat) (h : at_ ≤ mem.length) :
    (mem.take at_ ++ data ++ mem.drop (at_ + data.length)).drop at_ =
      data ++ mem.drop (at_ + data.length) := by
  have : (mem.take at_).length = at_ := by rw [List.length_take]; omega
  rw [List.append_assoc, List.drop_append_of_le_length (by omega), List.drop_eq_nil_of_le (by omega),
    List.nil_append]

/-- Making room keeps the unread bytes and makes room. -/
theorem prepPush_spec {b : Buf} (hb : b.Ok) (n : Nat) :
    ∃ b', prepPush b n = some b' ∧ b'.Ok ∧ b'.unread = b.unread ∧ n ≤ b'.mem.length - b'.stop ∧
      (b' = b ∨ b'.start = 3) := by
  obtain ⟨h1, h2⟩ := hb
  have hu : b.unread.length = b.stop - b.start := unread_length ⟨h1, h2⟩
  unfold prepPush
  rw [if_neg (by omega)]
  by_cases hfit : b.mem.length - b.stop ≥ n
  · rw [if_pos hfit]
    exact ⟨b, rfl, ⟨h1, h2⟩, rfl, hfit, Or.inl rfl⟩
  rw [if_neg hfit, if_neg (by omega)]
  have hmh : maxHeader = 3 := rfl
  have key : ∀ mem : List UInt8, maxHeader + (b.stop - b.start) + n ≤ mem.length →
      ∃ b', (writeAt mem maxHeader b.unread).map (fun mem =>
        ({ mem := mem, start := maxHeader, stop := maxHeader + (b.stop - b.start) } : Buf)) = some b' ∧ b'.Ok ∧
        b'.unread = b.unread ∧ n ≤ b'.mem.length - b'.stop ∧ (b' = b ∨ b'.start = 3) := by
    intro mem hlen
    rw [writeAt_some (by omega)]
    refine ⟨_, rfl, ⟨by simp only; omega, ?_⟩, ?_, ?_, Or.inr rfl⟩
    · simp only [List.length_append, List.length_take, List.length_drop]; omega
    · simp only [Buf.unread, Nat.add_sub_cancel_left]
      rw [show (b.mem.drop b.start).take (b.stop - b.start) = b.unread from rfl, drop_write _ _ _ (by omega)]
      rw [List.take_append_of_le_length (by omega), List.take_of_length_le (by omega)]
    · simp only [List.length_append, List.length_take, List.length_drop]; omega
  by_cases hc : b.mem.length ≥ b.stop - b.start + n + maxHeader ∧
      (b.start = b.stop ∨ b.start ≥ 16384 ∧ b.start > b.stop - b.start + maxHeader)
  · rw [if_pos hc, if_neg (by omega)]
    exact key b.mem (by omega)
  · rw [if_neg hc]
    apply key
    rw [List.length_replicate]
    have hl : maxHeader + n + (b.stop - b.start) < 2 ^ ((maxHeader + n + (b.stop - b.start)).log2 + 1) :=
      Nat.lt_log2_self
    have : 2 ^ ((maxHeader + n + (b.stop - b.start)).log2 + 1) ≤
        2 ^ max ((maxHeader + n + (b.stop - b.start)).log2 + 2) 9 :=
      Nat.pow_le_pow_right (by omega) (by omega)
    omega

/-- Storing bytes behind the write cursor appends them to the unread bytes. -/
theorem store_spec {b : Buf} (hb : b.Ok) {data : List UInt8}
    (h : data.length ≤ b.mem.length - b.stop) :
    ∃ mem, writeAt b.mem b.stop data = some mem ∧
      ({ b with mem := mem, stop := b.stop + data.length } : Buf).Ok ∧
      ({ b with mem := mem, stop := b.stop + data.length } : Buf).unread = b.unread ++ data := by
  obtain ⟨h1, h2⟩ := hb
  rw [writeAt_some (by omega)]
  refine ⟨_, rfl, ⟨by simp only; omega, ?_⟩, ?_⟩
  · simp only [List.length_append, List.length_take, List.length_drop]; omega
  · simp only [Buf.unread]
    rw [List.append_assoc, List.drop_append_of_le_length (by rw [List.length_take]; omega),
      List.drop_take, ← List.append_assoc]
    have hl : ((b.mem.drop b.start).take (b.stop - b.start) ++ data).length =
        b.stop + data.length - b.start := by
      simp only [List.length_append, List.length_take, List.length_drop]; omega
    rw [← hl, List.take_left']
    rfl

theorem push_spec {b : Buf} (hb : b.Ok) (data : List UInt8) :
    ∃ b', b.push data = some b' ∧ b'.Ok ∧ b'.unread = b.unread ++ data ∧
      (b'.start = b.start ∧ b'.mem.length = b.mem.length ∨ b'.start = 3) := by
  obtain ⟨b1, e1, hok, hun, hroom, hst⟩ := prepPush_spec hb data.length
  obtain ⟨mem, e2, hok2, hun2⟩ := store_spec hok hroom
  refine ⟨{ b1 with mem := mem, stop := b1.stop + data.length }, ?_, hok2, ?_, ?_⟩
  · simp only [Buf.push, e1, Option.bind_eq_bind, Option.bind_some, e2]
  · rw [hun2, hun]
  · rcases hst with rfl | h
    · exact Or.inl ⟨rfl, writeAt_length e2⟩
    · exact Or.inr h

@[simp] theorem upd_same {α : Type} (f : Bool → α) (i : Bool) (v : α) : upd f i v i = v := by
  simp [upd]

theorem upd_ne {α : Type} (f : Bool → α) {i j : Bool} (v : α) (h : j ≠ i) : upd f i v j = f j := by
  simp [upd, h]

/-- Both buffers have their cursors in order. -/
def Mux.Ok (m : Mux) : Prop := ∀ i, (m.buf i).Ok

/-- The unread bytes of both streams. -/
def Mux.unread (m : Mux) (i : Bool) : List UInt8 := (m.buf i).unread

theorem ok_new : Mux.new.Ok := by intro i; exact ⟨Nat.le_refl _, Nat.le_refl _⟩

theorem mux_push_spec {m : Mux} (hm : m.Ok) (i : Bool) (data : List UInt8) :
    ∃ m' b', m.push i data = some m' ∧ m' = { m with buf := upd m.buf i b' } ∧ m'.Ok ∧
      b'.unread = (m.buf i).unread ++ data ∧
      (b'.start = (m.buf i).start ∧ b'.mem.length = (m.buf i).mem.length ∨ b'.start = 3) := by
  obtain ⟨b', e, hok, hun, hst⟩ := push_spec (hm i) data
  refine ⟨_, b', ?_, rfl, ?_, hun, hst⟩
  · simp only [Mux.push, e, Option.bind_eq_bind, Option.bind_some]
  · intro j
    by_cases hj : j = i
    · subst hj; simpa using hok
    · simpa [upd_ne _ _ hj] using hm j

theorem mux_push_unread {m m' : Mux} {b' : Buf} {i : Bool} {data : List UInt8}
    (h : m' = { m with buf := upd m.buf i b' }) (hb : b'.unread = (m.buf i).unread ++ data) (j : Bool) :
    m'.unread j = if j = i then m.unread j ++ data else m.unread j := by
  subst h
  by_cases hj : j = i
  · subst hj; simp [Mux.unread, hb]
  · simp [Mux.unread, upd_ne _ _ hj, hj]

end Divans.Mux
