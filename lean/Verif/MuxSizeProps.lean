import Verif.MuxProps

/-!
# The size of what the multiplexer writes: C103

However the outputs are cut, the framing costs at most one byte in 4096, three bytes for every time data was stored, and the three
bytes of the end of stream.
-/

namespace Divans.Mux

/-- Whether an operation stores at least a byte. -/
def MOp.stores : MOp → Bool
  | .push _ data => !data.isEmpty
  | .fill _ data => !data.isEmpty
  | _ => false

/-- How often at least a byte was stored. -/
def stores (ops : List MOp) : Nat := (ops.filter MOp.stores).length

/-- How many bytes were stored on both streams. -/
def total (ops : List MOp) : Nat := (pushed ops false).length + (pushed ops true).length

/-- What an operation may add to the cost, in parts of 4096 of a byte. -/
def MOp.price (op : MOp) : Nat :=
  4097 * ((op.data false).length + (op.data true).length) + if op.stores then 12288 else 0

/-! ## Proofs -/

theorem grow_price {m : Mux} {g : Bool → Buf} {i : Bool} {n : Nat}
    (h : ∀ j, (g j).stop - (g j).start = (m.buf j).stop - (m.buf j).start + if j = i then n else 0) :
    price { m with buf := g } ≤ price m + 4097 * n + 12288 * min 1 n := by
  rw [price_other _ i, price_other m i]
  have hn : (!i) ≠ i := by cases i <;> decide
  have hlo : ∀ j, lo { m with buf := g } j = lo m j := fun _ => rfl
  have h1 := h i
  have h2 := h (!i)
  rw [if_pos rfl] at h1
  rw [if_neg hn, Nat.add_zero] at h2
  simp only [priceOf, hlo, h1, h2]
  omega

theorem push_price {m m' : Mux} (hi : Inv m) (i : Bool) (data : List UInt8) (e : m.push i data = some m') :
    price m' ≤ price m + 4097 * data.length + 12288 * min 1 data.length ∧ m'.eof = m.eof := by
  obtain ⟨m1, b', e1, hm1, hok, hun, -⟩ := mux_push_spec hi.ok i data
  rw [e] at e1
  cases e1
  subst hm1
  refine ⟨grow_price (i := i) ?_, rfl⟩
  intro j
  by_cases hj : j = i
  · subst hj
    have h1 := hok j
    simp only [upd_same] at h1
    have h2 := unread_length h1
    have h3 := unread_length (hi.ok j)
    rw [hun, List.length_append] at h2
    rw [upd_same, if_pos rfl]
    omega
  · rw [upd_ne _ _ hj, if_neg hj, Nat.add_zero]

theorem fill_price {m m' : Mux} (hi : Inv m) (i : Bool) (data : List UInt8) (e : m.fill i data = some m') :
    price m' ≤ price m + 4097 * data.length + 12288 * min 1 data.length ∧ m'.eof = m.eof := by
  obtain ⟨b0, e0, hok0, hun0, -, -⟩ := prepPush_spec (hi.ok false) 16
  obtain ⟨b1, e1, hok1, hun1, -, -⟩ := prepPush_spec (hi.ok true) 16
  have l0 := unread_length hok0
  have l1 := unread_length hok1
  rw [hun0, unread_length (hi.ok false)] at l0
  rw [hun1, unread_length (hi.ok true)] at l1
  simp only [Mux.fill, e0, e1, Option.bind_eq_bind, Option.bind_some] at e
  generalize hb : (if i = true then b1 else b0) = b at e
  have hbok : b.Ok := by subst hb; split <;> assumption
  cases hw : writeAt b.mem b.stop data with
  | none => rw [hw] at e; cases e
  | some mem =>
    rw [hw] at e
    cases e
    refine ⟨grow_price (i := i) ?_, rfl⟩
    have h1 := hbok.1
    intro j
    by_cases hj : j = i
    · subst hj
      rw [upd_same, if_pos rfl]
      subst hb
      cases j <;> simp at h1 ⊢ <;> omega
    · rw [upd_ne _ _ hj, if_neg hj, Nat.add_zero]
      cases j <;> simp <;> omega

theorem close_price {m m' : Mux} {out : List UInt8} (hi : Inv m) (room : Nat) (e : serializeClose m room = some (m', out)) :
    price m' + 4096 * (eofRest m'.eof).length + 4096 * out.length ≤ price m + 4096 * (eofRest m.eof).length := by
  unfold serializeClose at e
  by_cases hd : m.eof = .done
  · rw [if_pos hd] at e
    cases e
    simp
  rw [if_neg hd] at e
  obtain ⟨m1, out1, e1, htr, -⟩ := flushInternal_spec hi room
  rw [e1] at e
  cases e
  have h1 := htr.price
  have h2 := eofRest_advance m1.eof (min (eofRest m1.eof).length (room - out1.length)) (by omega)
  have h3 : price { m1 with eof := eofAdvance m1.eof (min (eofRest m1.eof).length (room - out1.length)) } = price m1 := rfl
  have h4 := htr.eof
  rw [List.length_nil] at h1
  rw [List.length_append, List.length_take]
  rw [h4] at h2
  simp only [h4] at h3 ⊢
  rw [h3]
  omega

theorem runOps_price : ∀ (ops : List MOp) (m : Mux), Inv m → legal m ops = true → ∀ m' out, runOps m ops = some (m', out) →
    price m' + 4096 * (eofRest m'.eof).length + 4096 * out.length ≤
      price m + 4096 * (eofRest m.eof).length + (ops.map MOp.price).sum := by
  intro ops
  induction ops with
  | nil =>
    intro m _ _ m' out e
    cases e
    simp
  | cons op ops ih =>
    intro m hi hl m'' out'' e
    rw [legal, Bool.and_eq_true] at hl
    obtain ⟨hal, hl⟩ := hl
    have key : ∃ m' out, op.run m = some (m', out) ∧ Inv m' ∧
        price m' + 4096 * (eofRest m'.eof).length + 4096 * out.length ≤ price m + 4096 * (eofRest m.eof).length + op.price := by
      cases op with
      | push i data =>
        obtain ⟨m', e, hi', -⟩ := op_push hi i data
        obtain ⟨h1, h2⟩ := push_price hi i data e
        refine ⟨m', [], by simp [MOp.run, e], hi', ?_⟩
        rw [h2]
        cases data <;> cases i <;> simp [MOp.price, MOp.data, MOp.stores] at h1 ⊢ <;> omega
      | fill i data =>
        simp only [MOp.allowed, Bool.and_eq_true] at hal
        obtain ⟨m', e, hi', -⟩ := op_fill hi i data hal.2
        obtain ⟨h1, h2⟩ := fill_price hi i data e
        refine ⟨m', [], by simp [MOp.run, e], hi', ?_⟩
        rw [h2]
        cases data <;> cases i <;> simp [MOp.price, MOp.data, MOp.stores] at h1 ⊢ <;> omega
      | serialize room =>
        obtain ⟨m', out, e, htr⟩ := serialize_spec hi room
        refine ⟨m', out, e, htr.inv, ?_⟩
        have h1 := htr.price
        rw [htr.eof]
        simp [MOp.price, MOp.data, MOp.stores] at h1 ⊢
        omega
      | close room =>
        obtain ⟨m', out, e, hi', -⟩ := close_spec hi room
        refine ⟨m', out, e, hi', ?_⟩
        have h1 := close_price hi room e
        simp [MOp.price, MOp.data, MOp.stores] at h1 ⊢
        omega
    obtain ⟨m', out, e1, hi', h1⟩ := key
    rw [e1] at hl
    simp only [runOps, e1, Option.bind_eq_bind, Option.bind_some] at e
    cases e2 : runOps m' ops with
    | none => rw [e2] at e; cases e
    | some q =>
      obtain ⟨m2, out2⟩ := q
      rw [e2] at e
      cases e
      have h2 := ih m' hi' hl m2 out2 e2
      rw [List.map_cons, List.sum_cons]
      simp only [List.length_append]
      omega

theorem sum_price (ops : List MOp) : (ops.map MOp.price).sum = 4097 * total ops + 12288 * stores ops := by
  induction ops with
  | nil => rfl
  | cons op ops ih =>
    rw [List.map_cons, List.sum_cons, ih]
    simp only [total, pushed, List.map_cons, List.flatten_cons, List.length_append, stores, List.filter_cons, MOp.price]
    cases op.stores <;> simp <;> omega

/-- Reading a byte delivers one byte or brings the end of stream one byte nearer, at most. -/
theorem step_size {s s' : Scan} {b : UInt8} (h : step s b = some s') :
    (s'.out false).length + (s'.out true).length + (eofRest s.eof).length ≤
      (s.out false).length + (s.out true).length + (eofRest s'.eof).length + 1 := by
  unfold step at h
  split at h
  · cases h
  · split at h
    · cases h; simp only; omega
    · cases h; simp only; omega
    · next id c _ =>
      cases h
      cases id <;> simp [upd] <;> omega
    · split at h
      · cases he : eofStep s.eof b with
        | none => rw [he] at h; cases h
        | some e =>
          rw [he] at h
          cases h
          have : (eofRest s.eof).length = (eofRest e).length + 1 := by
            revert he
            cases s.eof <;> simp only [eofStep] <;> intro he <;> (try cases he) <;> (split at he <;> cases he <;> rfl)
          simp only
          omega
      · split at h <;> cases h <;> simp only <;> omega

theorem runAll_size {l : List UInt8} : ∀ {s s' : Scan}, runAll s l = some s' →
    (s'.out false).length + (s'.out true).length + (eofRest s.eof).length ≤
      (s.out false).length + (s.out true).length + (eofRest s'.eof).length + l.length := by
  induction l with
  | nil => intro s s' h; cases h; simp
  | cons b l ih =>
    intro s s' h
    rw [runAll] at h
    cases hs : step s b with
    | none => rw [hs] at h; cases h
    | some s1 =>
      rw [hs, Option.bind_some] at h
      have h1 := step_size hs
      have h2 := ih h
      rw [List.length_cons]
      omega

/-! ## The theorems -/

/-- **C103.** Whatever was stored, however the outputs were cut and however often they were offered: the multiplexer has written at
most the bytes stored, one more for each 4096 of them, three for each time at least a byte was stored, and three for the end of stream. -/
theorem mux_overhead (ops : List MOp) (h : legal Mux.new ops = true) :
    ∃ m out, runOps Mux.new ops = some (m, out) ∧ out.length ≤ total ops + total ops / 4096 + 3 * stores ops + 3 := by
  obtain ⟨m, out, e, -, -⟩ := runOps_spec ops Mux.new _ [] inv_new rel_new h
  refine ⟨m, out, e, ?_⟩
  have h1 := runOps_price ops Mux.new inv_new h m out e
  have h2 : price Mux.new + 4096 * (eofRest Mux.new.eof).length = 12288 := by decide +kernel
  rw [sum_price] at h1
  omega

/-- **C103.** When the end of stream is reported, at least the bytes stored and the three of the end of stream were written, and closing
again writes nothing more. -/
theorem mux_complete (ops : List MOp) (h : legal Mux.new ops = true) (m : Mux) (out : List UInt8)
    (e : runOps Mux.new ops = some (m, out)) (hd : m.isEof = true) :
    total ops + 3 ≤ out.length ∧ ∀ room, serializeClose m room = some (m, []) := by
  obtain ⟨m1, out1, e1, hi, hr⟩ := runOps_spec ops Mux.new _ [] inv_new rel_new h
  rw [e] at e1
  cases e1
  have hdone := (isEof_of_rel hi hr).mp hd
  refine ⟨?_, fun room => by rw [serializeClose, if_pos hdone]⟩
  obtain ⟨⟨s, hrun, -, he, ho⟩, hempty⟩ := hr
  have h0 := hempty hdone
  rw [h0, List.take_nil, List.append_nil, List.nil_append] at hrun
  have h1 := runAll_size hrun
  have hf := ho false
  have ht := ho true
  simp only [h0, List.drop_nil, List.append_nil, List.nil_append] at hf ht
  rw [hf, ht, he, hdone] at h1
  simp only [Scan.init, eofRest, List.length_nil, List.length_cons] at h1
  simp only [total]
  omega

/-! ## The theorems are not vacuous -/

/-- The bound is reached: one byte on each stream costs three bytes each, and three for the end. -/
example : (runOps Mux.new [.push false [7], .push true [8], .close 20]).map (fun p => (p.2.length, p.1.isEof)) = some (11, true) ∧
    total [.push false [7], .push true [8], .close 20] = 2 ∧ stores [.push false [7], .push true [8], .close 20] = 2 := by
  decide +kernel

/-- Storing nothing costs nothing. -/
example : stores [.push false [], .push true [8], .close 20] = 1 ∧
    (runOps Mux.new [.push false [], .push true [8], .close 20]).map (fun p => p.2.length) = some 7 := by decide +kernel

/-- Closing without data meets the lower bound. -/
example : (runOps Mux.new [.close 1, .close 2]).map (fun p => (p.2, p.1.isEof)) = some ([0xff, 0xfe, 0xff], true) := by decide +kernel

example : legal Mux.new [.push false [7], .push true [8], .close 20] = true := by decide +kernel

/-- Cramped outputs do not cost more. -/
example : total sampleOps = 7 ∧ stores sampleOps = 4 ∧
    (runOps Mux.new sampleOps).map (fun p => p.2.length) = some 19 := by decide +kernel

end Divans.Mux
