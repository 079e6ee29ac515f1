import Verif.Ir
import Verif.CompProps
import Verif.RecodeProps
import Verif.FfiRun
import Verif.CliRun

/-! # Lemmas for the programs for the textual command format -/

namespace Divans.Ir
open Divans.Io (Ev)
open Divans.Cli (WEv)

variable {κ γ : Type}

/-- A sink that fails or takes nothing. -/
def Broken (sink : List WEv) : Prop := .fail ∈ sink ∨ .took 0 ∈ sink

theorem writeAll_spec : ∀ (sink : List WEv) (bs : List UInt8), ∃ sink' out ok, writeAll sink bs = (sink', out, ok) ∧
    sink' <:+ sink ∧ out <+: bs ∧ (ok = true ∧ out = bs ∨ ok = false ∧ Broken sink) := by
  intro sink
  induction sink with
  | nil =>
    intro bs
    cases bs <;> exact ⟨_, _, _, rfl, List.suffix_refl _, List.prefix_refl _, .inl ⟨rfl, rfl⟩⟩
  | cons w t ih =>
    intro bs
    cases bs with
    | nil => exact ⟨_, _, _, by cases w <;> rfl, List.suffix_refl _, List.prefix_refl _, .inl ⟨rfl, rfl⟩⟩
    | cons b bs =>
      have up : Broken t → Broken (w :: t) := fun h => h.imp (List.mem_cons_of_mem _) (List.mem_cons_of_mem _)
      cases w with
      | took n =>
        by_cases hn : n = 0
        · subst hn
          exact ⟨t, [], false, by rw [writeAll, if_pos rfl], List.suffix_cons _ _, List.nil_prefix, .inr ⟨rfl, .inr (by simp)⟩⟩
        · obtain ⟨s, o, ok, h1, h2, h3, h4⟩ := ih ((b :: bs).drop n)
          refine ⟨s, (b :: bs).take n ++ o, ok, by rw [writeAll, if_neg hn, h1], h2.trans (List.suffix_cons _ _), ?_, ?_⟩
          · obtain ⟨r, hr⟩ := h3
            exact ⟨r, by rw [List.append_assoc, hr, List.take_append_drop]⟩
          · rcases h4 with ⟨a, rfl⟩ | ⟨a, h⟩
            · exact .inl ⟨a, List.take_append_drop _ _⟩
            · exact .inr ⟨a, up h⟩
      | interrupted =>
        obtain ⟨s, o, ok, h1, h2, h3, h4⟩ := ih (b :: bs)
        exact ⟨s, o, ok, by rw [writeAll, h1], h2.trans (List.suffix_cons _ _), h3, h4.imp id (fun h => ⟨h.1, up h.2⟩)⟩
      | fail => exact ⟨t, [], false, rfl, List.suffix_cons _ _, List.nil_prefix, .inr ⟨rfl, .inl (by simp)⟩⟩

theorem write_spec (j : Job κ) (c : κ) (bs : List UInt8) : ∃ j' ok, j.write c bs = (j', ok) ∧ j'.sink <:+ j.sink ∧
    (ok = true ∧ j' = ⟨c, j'.sink, j.written ++ bs⟩ ∨ ok = false ∧ Broken j.sink) := by
  obtain ⟨s, o, ok, h1, h2, h3, h4⟩ := writeAll_spec j.sink bs
  refine ⟨⟨c, s, j.written ++ o⟩, ok, by rw [Job.write, h1], h2, ?_⟩
  rcases h4 with ⟨a, rfl⟩ | ⟨a, h⟩
  · exact .inl ⟨a, rfl⟩
  · exact .inr ⟨a, h⟩

theorem Broken.mono {a b : List WEv} (h : a <:+ b) (hb : Broken a) : Broken b :=
  hb.imp (fun x => h.subset x) (fun x => h.subset x)

/-- What the loops need of a compressor or recoder.  `R c rest told out`: so far the commands `told` were given to it, of
these `rest` were not yet taken, and it has written `out`.  `Q`: the same, while it is flushed.  `Fin told file`: what is
known at the end. -/
structure Tells (t : Scribe κ γ) (size : Nat) (ok : γ → Prop) (R : κ → List γ → List γ → List UInt8 → Prop)
    (Q : κ → List γ → List UInt8 → Prop) (Fin : List γ → List UInt8 → Prop) {α β : Type} (lt : α → α → Prop)
    (mu : κ → List γ → List γ → List UInt8 → α) (lt' : β → β → Prop) (rk : κ → List γ → List UInt8 → β) : Prop where
  wf : WellFounded lt
  wf' : WellFounded lt'
  step : ∀ {c rest told out}, R c rest told out → rest ≠ [] →
    ∃ f0 c' n o code, (∀ fuel, f0 ≤ fuel → t.commands fuel c rest size = some (c', n, o, code)) ∧
      R c' (rest.drop n) told (out ++ o) ∧
      (code = .success ∧ n = rest.length ∨
        code = .needsOutput ∧ o ≠ [] ∧ lt (mu c' (rest.drop n) told (out ++ o)) (mu c rest told out))
  more : ∀ {c told out} (xs : List γ), R c [] told out → (∀ x ∈ xs, ok x) → R c xs (told ++ xs) out
  last : ∀ {c told out}, R c [] told out → Q c told out
  flush : ∀ {c told out}, Q c told out →
    ∃ f0 c' o code, (∀ fuel, f0 ≤ fuel → t.flush fuel c size = some (c', o, code)) ∧ Q c' told (out ++ o) ∧
      (code = .success ∧ Fin told (out ++ o) ∨
        code = .needsOutput ∧ o ≠ [] ∧ lt' (rk c' told (out ++ o)) (rk c told out))

section generic

variable {t : Scribe κ γ} {size : Nat} {ok : γ → Prop} {R : κ → List γ → List γ → List UInt8 → Prop}
  {Q : κ → List γ → List UInt8 → Prop} {Fin : List γ → List UInt8 → Prop} {α β : Type} {lt : α → α → Prop}
  {mu : κ → List γ → List γ → List UInt8 → α} {lt' : β → β → Prop} {rk : κ → List γ → List UInt8 → β}

theorem feed_ok (K : Tells t size ok R Q Fin lt mu lt' rk) : ∀ (a : α) (j : Job κ) (rest told : List γ),
    mu j.comp rest told j.written = a → R j.comp rest told j.written →
    ∃ f0 j' e, (∀ n rounds, f0 ≤ n → f0 ≤ rounds → feed t n size rounds j rest = some (j', e)) ∧ j'.sink <:+ j.sink ∧
      (e = none ∧ R j'.comp [] told j'.written ∨ e = some .ioErr ∧ Broken j.sink) := by
  intro a
  induction a using K.wf.induction with
  | _ a ih =>
    intro j rest told hm h
    cases rest with
    | nil => exact ⟨0, j, none, fun n rounds _ _ => (by cases rounds <;> rfl), List.suffix_refl _, .inl ⟨rfl, h⟩⟩
    | cons x xs =>
      obtain ⟨f0, c', n, o, code, k1, k2, k3⟩ := K.step h (by simp)
      obtain ⟨j1, okw, w1, w2, w3⟩ := write_spec j c' o
      rcases k3 with ⟨rfl, hn⟩ | ⟨rfl, ho, hlt⟩
      · refine ⟨f0 + 1, j1, if okw then none else some .ioErr, fun fuel rounds hf hr => ?_, w2, ?_⟩
        · obtain ⟨r, rfl⟩ : ∃ r, rounds = r + 1 := ⟨rounds - 1, by omega⟩
          rw [feed, k1 fuel (by omega)]
          simp only
          rw [if_pos hn, w1]
        · rcases w3 with ⟨rfl, hj⟩ | ⟨rfl, hb⟩
          · rw [hn, List.drop_length] at k2
            rw [hj]
            exact .inl ⟨rfl, k2⟩
          · exact .inr ⟨rfl, hb⟩
      · rcases w3 with ⟨rfl, hj⟩ | ⟨rfl, hb⟩
        · obtain ⟨f1, j2, e, l1, l2, l3⟩ := ih _ (by rw [← hm]; exact hlt) j1 ((x :: xs).drop n) told (by rw [hj])
            (by rw [hj]; exact k2)
          refine ⟨max f0 f1 + 1, j2, e, fun fuel rounds hf hr => ?_, l2.trans w2, l3.imp id fun h => ⟨h.1, h.2.mono w2⟩⟩
          obtain ⟨r, rfl⟩ : ∃ r, rounds = r + 1 := ⟨rounds - 1, by omega⟩
          rw [feed, k1 fuel (by omega)]
          simp only
          rw [if_neg ho, w1]
          exact l1 fuel r (by omega) (by omega)
        · refine ⟨f0 + 1, j1, some .ioErr, fun fuel rounds hf hr => ?_, w2, .inr ⟨rfl, hb⟩⟩
          obtain ⟨r, rfl⟩ : ∃ r, rounds = r + 1 := ⟨rounds - 1, by omega⟩
          rw [feed, k1 fuel (by omega)]
          simp only
          rw [if_neg ho, w1]
          simp

theorem close_ok (K : Tells t size ok R Q Fin lt mu lt' rk) : ∀ (b : β) (j : Job κ) (told : List γ),
    rk j.comp told j.written = b → Q j.comp told j.written →
    ∃ f0 j' e, (∀ n rounds, f0 ≤ n → f0 ≤ rounds → close t n size rounds j = some (j', e)) ∧
      (e = .ok ∧ Fin told j'.written ∨ e = .ioErr ∧ Broken j.sink) := by
  intro b
  induction b using K.wf'.induction with
  | _ b ih =>
    intro j told hm h
    obtain ⟨f0, c', o, code, k1, k2, k3⟩ := K.flush h
    obtain ⟨j1, okw, w1, w2, w3⟩ := write_spec j c' o
    rcases k3 with ⟨rfl, hn⟩ | ⟨rfl, ho, hlt⟩
    · refine ⟨f0 + 1, j1, if okw then .ok else .ioErr, fun fuel rounds hf hr => ?_, ?_⟩
      · obtain ⟨r, rfl⟩ : ∃ r, rounds = r + 1 := ⟨rounds - 1, by omega⟩
        rw [close, k1 fuel (by omega)]
        simp only
        rw [w1]
      · rcases w3 with ⟨rfl, hj⟩ | ⟨rfl, hb⟩
        · rw [hj]
          exact .inl ⟨rfl, hn⟩
        · exact .inr ⟨rfl, hb⟩
    · rcases w3 with ⟨rfl, hj⟩ | ⟨rfl, hb⟩
      · obtain ⟨f1, j2, e, l1, l2⟩ := ih _ (by rw [← hm]; exact hlt) j1 told (by rw [hj]) (by rw [hj]; exact k2)
        refine ⟨max f0 f1 + 1, j2, e, fun fuel rounds hf hr => ?_, l2.imp id fun h => ⟨h.1, h.2.mono w2⟩⟩
        obtain ⟨r, rfl⟩ : ∃ r, rounds = r + 1 := ⟨rounds - 1, by omega⟩
        rw [close, k1 fuel (by omega)]
        simp only
        rw [if_neg ho, w1]
        exact l1 fuel r (by omega) (by omega)
      · refine ⟨f0 + 1, j1, .ioErr, fun fuel rounds hf hr => ?_, .inr ⟨rfl, hb⟩⟩
        obtain ⟨r, rfl⟩ : ∃ r, rounds = r + 1 := ⟨rounds - 1, by omega⟩
        rw [close, k1 fuel (by omega)]
        simp only
        rw [if_neg ho, w1]
        simp

/-- The commands of a text up to the first line that is wrong, and what is wrong with that. -/
def script : List Read → List Text.Cmd × Outcome
  | [] => ([], .ok)
  | .fail :: _ => ([], .ioErr)
  | .line l :: rest =>
    if Text.validUtf8 l = false then ([], .ioErr)
    else
      match Text.parse (trim l) with
      | .panic => ([], .crash)
      | .err => ([], .textErr)
      | .ok none => script rest
      | .ok (some c) => (c :: (script rest).1, (script rest).2)

/-- What a wrong line does. -/
def verdict (strict : Bool) (e : Outcome) : Outcome := if e = .textErr then unwrap strict e else e

/-- What the program does with the lines: it ends, and either everything is there, or the sink is broken, or a line is wrong
and the program says so. -/
theorem tell_ok (K : Tells t size ok R Q Fin lt mu lt' rk) (conv : Text.Cmd → γ) (strict : Bool) :
    ∀ (rs : List Read) (j : Job κ) (told buf : List γ),
    R j.comp [] told j.written → (∀ x ∈ buf, ok x) → (∀ x ∈ (script rs).1, ok (conv x)) →
    ∃ f0 j' e, (∀ n rounds, f0 ≤ n → f0 ≤ rounds → tell t conv strict n rounds size rs j buf = some (j', e)) ∧
      ((script rs).2 = .ok ∧ e = .ok ∧ Fin (told ++ buf ++ (script rs).1.map conv) j'.written ∨
        (script rs).2 ≠ .ok ∧ e = verdict strict (script rs).2 ∨
        (e = .ioErr ∨ e = unwrap strict .ioErr) ∧ Broken j.sink) := by
  intro rs
  induction rs with
  | nil =>
    intro j told buf h hb _
    obtain ⟨f0, j1, e, k1, k2, k3⟩ := feed_ok K _ j buf (told ++ buf) rfl (K.more buf h hb)
    rcases k3 with ⟨rfl, k3⟩ | ⟨rfl, hbr⟩
    · obtain ⟨f1, j2, e, l1, l2⟩ := close_ok K _ j1 (told ++ buf) rfl (K.last k3)
      refine ⟨max f0 f1, j2, e, fun n rounds hn hr => ?_, ?_⟩
      · rw [tell, k1 n rounds (by omega) (by omega)]
        exact l1 n rounds (by omega) (by omega)
      · rcases l2 with ⟨rfl, hf⟩ | ⟨rfl, hb⟩
        · exact .inl ⟨rfl, rfl, by simpa [script] using hf⟩
        · exact .inr (.inr ⟨.inl rfl, hb.mono k2⟩)
    · refine ⟨f0, j1, unwrap strict .ioErr, fun n rounds hn hr => ?_, .inr (.inr ⟨.inr rfl, hbr⟩)⟩
      rw [tell, k1 n rounds hn hr]
  | cons r rest ih =>
    intro j told buf h hb hs
    cases r with
    | fail => exact ⟨0, j, .ioErr, fun n rounds _ _ => rfl, .inr (.inl ⟨by simp [script], by simp [script, verdict]⟩)⟩
    | line l =>
      by_cases hu : Text.validUtf8 l = false
      · refine ⟨0, j, .ioErr, fun n rounds _ _ => by rw [tell, if_pos hu], .inr (.inl ?_)⟩
        rw [script, if_pos hu]
        exact ⟨by simp, by simp [verdict]⟩
      · obtain ⟨f0, j1, e, k1, k2, k3⟩ : ∃ f0 j1 e, (∀ n rounds, f0 ≤ n → f0 ≤ rounds →
            feed t n size rounds j (if buf.length = slots then buf else []) = some (j1, e)) ∧ j1.sink <:+ j.sink ∧
            (e = none ∧ R j1.comp [] (told ++ if buf.length = slots then buf else []) j1.written ∨
              e = some .ioErr ∧ Broken j.sink) := by
          refine feed_ok K _ j _ _ rfl (K.more _ h fun x hx => ?_)
          by_cases hl : buf.length = slots
          · rw [if_pos hl] at hx; exact hb x hx
          · rw [if_neg hl] at hx; cases hx
        rcases k3 with ⟨rfl, k3⟩ | ⟨rfl, hbr⟩
        · have step : ∀ (ds : List γ), (∀ x ∈ ds, ok x) → (∀ x ∈ (script rest).1, ok (conv x)) →
              ∃ f1 j2 e2, (∀ n rounds, f1 ≤ n → f1 ≤ rounds → tell t conv strict n rounds size rest j1
                ((if buf.length = slots then [] else buf) ++ ds) = some (j2, e2)) ∧
              ((script rest).2 = .ok ∧ e2 = .ok ∧ Fin (told ++ buf ++ ds ++ (script rest).1.map conv) j2.written ∨
                (script rest).2 ≠ .ok ∧ e2 = verdict strict (script rest).2 ∨
                (e2 = .ioErr ∨ e2 = unwrap strict .ioErr) ∧ Broken j.sink) := by
            intro ds hds hrs
            obtain ⟨f1, j2, e2, l1, l2⟩ := ih j1 _ ((if buf.length = slots then [] else buf) ++ ds) k3 (by
              intro x hx
              rcases List.mem_append.1 hx with hx | hx
              · by_cases hl : buf.length = slots
                · rw [if_pos hl] at hx; cases hx
                · rw [if_neg hl] at hx; exact hb x hx
              · exact hds x hx) hrs
            refine ⟨f1, j2, e2, l1, ?_⟩
            have e3 : told ++ (if buf.length = slots then buf else []) ++ ((if buf.length = slots then [] else buf) ++ ds) =
                told ++ buf ++ ds := by
              by_cases hl : buf.length = slots
              · simp [hl]
              · simp [hl]
            rw [e3] at l2
            rcases l2 with l2 | l2 | ⟨l2, l3⟩
            · exact .inl l2
            · exact .inr (.inl l2)
            · exact .inr (.inr ⟨l2, l3.mono k2⟩)
          cases hp : Text.parse (trim l) with
          | panic =>
            refine ⟨f0, j1, .crash, fun n rounds hn hr => ?_, .inr (.inl ?_)⟩
            · rw [tell, if_neg hu, k1 n rounds hn hr]
              simp only [hp]
            · rw [script, if_neg hu, hp]
              exact ⟨by simp, by simp [verdict]⟩
          | err =>
            refine ⟨f0, j1, unwrap strict .textErr, fun n rounds hn hr => ?_, .inr (.inl ?_)⟩
            · rw [tell, if_neg hu, k1 n rounds hn hr]
              simp only [hp]
            · rw [script, if_neg hu, hp]
              exact ⟨by simp, by simp [verdict]⟩
          | ok c =>
            cases c with
            | none =>
              have hsc : script (.line l :: rest) = script rest := by rw [script, if_neg hu, hp]
              obtain ⟨f1, j2, e2, l1, l2⟩ := step [] (by simp) (by rw [hsc] at hs; exact hs)
              refine ⟨max f0 f1, j2, e2, fun n rounds hn hr => ?_, ?_⟩
              · rw [tell, if_neg hu, k1 n rounds (by omega) (by omega)]
                simp only [hp]
                have := l1 n rounds (by omega) (by omega)
                rw [List.append_nil] at this
                exact this
              · rw [hsc]
                rw [List.append_nil] at l2
                exact l2
            | some c =>
              have hsc : script (.line l :: rest) = (c :: (script rest).1, (script rest).2) := by rw [script, if_neg hu, hp]
              rw [hsc] at hs
              obtain ⟨f1, j2, e2, l1, l2⟩ := step [conv c] (by simpa using hs c (by simp))
                (fun x hx => hs x (by simp [hx]))
              refine ⟨max f0 f1, j2, e2, fun n rounds hn hr => ?_, ?_⟩
              · rw [tell, if_neg hu, k1 n rounds (by omega) (by omega)]
                simp only [hp]
                exact l1 n rounds (by omega) (by omega)
              · rw [hsc]
                simp only [List.map_cons]
                rw [List.append_assoc _ [conv c]] at l2
                exact l2
        · refine ⟨f0, j1, unwrap strict .ioErr, fun n rounds hn hr => ?_, .inr (.inr ⟨.inr rfl, hbr⟩)⟩
          rw [tell, if_neg hu, k1 n rounds hn hr]

theorem feed_not_ok : ∀ (rounds : Nat) {n : Nat} {j j' : Job κ} {xs : List γ} {e : Outcome},
    feed t n size rounds j xs = some (j', some e) → e ≠ .ok := by
  intro rounds
  induction rounds with
  | zero => intro n j j' xs e h; cases xs <;> simp [feed] at h
  | succ k ih =>
    intro n j j' xs e h
    cases xs with
    | nil => simp [feed] at h
    | cons x xs =>
      rw [feed] at h
      cases hc : t.commands n j.comp (x :: xs) size with
      | none =>
        rw [hc] at h
        simp only [Option.some.injEq, Prod.mk.injEq] at h
        rw [← h.2]; simp
      | some y =>
        obtain ⟨c, used, out, code⟩ := y
        rw [hc] at h
        simp only at h
        cases code with
        | success =>
          simp only at h
          by_cases h1 : used = (x :: xs).length
          · rw [if_pos h1] at h
            cases h2 : (j.write c out).2 with
            | true => simp [h2] at h
            | false =>
              simp only [h2, Option.some.injEq, Prod.mk.injEq] at h
              have := h.2
              simp at this
              rw [← this]; simp
          · rw [if_neg h1] at h
            simp only [Option.some.injEq, Prod.mk.injEq] at h
            rw [← h.2]; simp
        | needsOutput =>
          simp only at h
          by_cases h1 : out = []
          · rw [if_pos h1] at h
            simp only [Option.some.injEq, Prod.mk.injEq] at h
            rw [← h.2]; simp
          · rw [if_neg h1] at h
            cases h2 : (j.write c out).2 with
            | true => rw [h2, if_pos rfl] at h; exact ih h
            | false =>
              rw [h2, if_neg (by simp)] at h
              simp only [Option.some.injEq, Prod.mk.injEq] at h
              rw [← h.2]; simp
        | needsInput => 
          simp only [Option.some.injEq, Prod.mk.injEq] at h
          rw [← h.2]; simp
        | failure => 
          simp only [Option.some.injEq, Prod.mk.injEq] at h
          rw [← h.2]; simp

theorem unwrap_not_ok {strict : Bool} {e : Outcome} (h : e ≠ .ok) : unwrap strict e ≠ .ok := by
  unfold unwrap
  cases strict
  · simpa using h
  · simp

/-- If the program ends without an error, every line was good. -/
theorem tell_good {conv : Text.Cmd → γ} {strict : Bool} {n rounds : Nat} : ∀ (rs : List Read) {j j' : Job κ} {buf : List γ},
    tell t conv strict n rounds size rs j buf = some (j', .ok) → (script rs).2 = .ok := by
  intro rs
  induction rs with
  | nil => intros; rfl
  | cons r rest ih =>
    intro j j' buf h
    cases r with
    | fail => simp [tell] at h
    | line l =>
      rw [tell] at h
      by_cases hu : Text.validUtf8 l = false
      · simp [hu] at h
      · rw [if_neg hu] at h
        cases hf : feed t n size rounds j (if buf.length = slots then buf else []) with
        | none => rw [hf] at h; cases h
        | some y =>
          obtain ⟨j1, e⟩ := y
          rw [hf] at h
          cases e with
          | some e =>
            simp only [Option.some.injEq, Prod.mk.injEq] at h
            exact absurd h.2 (unwrap_not_ok (feed_not_ok rounds hf))
          | none =>
            simp only at h
            rw [script, if_neg hu]
            cases hp : Text.parse (trim l) with
            | panic => rw [hp] at h; simp at h
            | err =>
              rw [hp] at h
              simp only [Option.some.injEq, Prod.mk.injEq] at h
              exact absurd h.2 (unwrap_not_ok (by simp))
            | ok c =>
              rw [hp] at h
              cases c with
              | none => exact ih h
              | some c => exact ih h

end generic

/-! ## Lines -/

/-- The lines of a text; the last may lack its line feed. -/
def linesOf (bs : List UInt8) : List Read :=
  (cut [] bs).1 ++ if (cut [] bs).2 = [] then [] else [.line (cut [] bs).2]

theorem cut_append : ∀ (a acc b : List UInt8), cut acc (a ++ b) =
    ((cut acc a).1 ++ (cut (cut acc a).2 b).1, (cut (cut acc a).2 b).2) := by
  intro a
  induction a with
  | nil => intro acc b; simp [cut]
  | cons x a ih =>
    intro acc b
    rw [List.cons_append, cut, cut]
    by_cases hx : x = 10
    · simp only [if_pos hx, ih, List.cons_append]
    · simp only [if_neg hx, ih]

theorem reads_cut : ∀ {src : List Ev} (acc : List UInt8), Cli.Whole src → .fail ∉ src →
    reads acc src = (cut acc (Io.srcBytes src)).1 ++
      if (cut acc (Io.srcBytes src)).2 = [] then [] else [.line (cut acc (Io.srcBytes src)).2] := by
  intro src
  induction src with
  | nil => intro acc _ _; simp [reads, Io.srcBytes, cut]
  | cons e t ih =>
    intro acc hw hf
    have hw' : Cli.Whole t := fun h => hw (List.mem_cons_of_mem _ h)
    have hf' : Ev.fail ∉ t := fun h => hf (List.mem_cons_of_mem _ h)
    cases e with
    | interrupted => rw [reads, ih acc hw' hf']; rfl
    | fail => simp at hf
    | data bs =>
      cases bs with
      | nil => exact absurd (List.mem_cons_self) hw
      | cons b bs =>
        rw [reads, ih _ hw' hf', Io.srcBytes, cut_append]
        simp only [List.append_assoc]

/-- However a source without errors cuts its bytes and however often it is interrupted, the lines are those of its bytes. -/
theorem reads_whole {src : List Ev} (hw : Cli.Whole src) (hf : .fail ∉ src) : reads [] src = linesOf (Io.srcBytes src) :=
  reads_cut [] hw hf

theorem cut_line : ∀ (l acc t : List UInt8), 10 ∉ l → cut acc (l ++ 10 :: t) = (.line (acc ++ l ++ [10]) :: (cut [] t).1, (cut [] t).2) := by
  intro l
  induction l with
  | nil => intro acc t _; rw [List.nil_append, cut, if_pos rfl, List.append_nil]
  | cons x l ih =>
    intro acc t h
    rw [List.cons_append, cut, if_neg (fun hx => h (by simp [hx])), ih _ _ (fun hm => h (List.mem_cons_of_mem _ hm))]
    simp

/-- A text that is a list of lines. -/
def text (ls : List (List UInt8)) : List UInt8 := ls.flatMap (· ++ [10])

theorem linesOf_text : ∀ (ls : List (List UInt8)), (∀ l ∈ ls, 10 ∉ l) → linesOf (text ls) = ls.map fun l => .line (l ++ [10]) := by
  have key : ∀ (ls : List (List UInt8)), (∀ l ∈ ls, 10 ∉ l) → cut [] (text ls) = (ls.map fun l => .line (l ++ [10]), []) := by
    intro ls
    induction ls with
    | nil => intro _; rfl
    | cons l ls ih =>
      intro h
      have e : text (l :: ls) = l ++ 10 :: text ls := by simp [text]
      rw [e, cut_line _ _ _ (h l (by simp)), ih (fun x hx => h x (by simp [hx]))]
      rfl
  intro ls h
  rw [linesOf, key ls h]
  simp

/-! ## The recoder -/

section
open Divans.Recode

/-- As `encodeCommands_spec`; moreover the commands left are the last ones, and if none is left, none was begun. -/
theorem encodeCommands_left (L : Nat) (hL : 1 < L) (cs : List Recode.Cmd) (hv : ∀ c ∈ cs, Valid L c)
    (h : List UInt8) (s : St) (E : List UInt8) (room : Nat)
    (i : Inv L s E (midway h cs s)) (hm : MidOk cs s) (hz : cs = [] → s.sub = 0) :
    ∃ s' o r rest h', encodeCommands s cs room = .done ((s', o, r), rest) ∧ rest <:+ cs ∧ (rest = [] → s'.sub = 0) ∧
      o.length ≤ room ∧ expand h' rest = expand h cs ∧ Inv L s' (E ++ o) (midway h' rest s') ∧ MidOk rest s' ∧
      ((r = Res.ok ∧ rest = []) ∨ (r = Res.more ∧ o.length = room ∧ (rest = [] → 0 < pend s'))) := by
  induction cs generalizing h s E room with
  | nil =>
    obtain ⟨s', o, r, hf, i', hsub, hb, hpd, hr⟩ := i.flush room
    refine ⟨s', o, r, [], h, by simp only [encodeCommands]; rw [hf], List.suffix_refl _,
      fun _ => hsub.trans (hz rfl), hb, rfl, i', trivial, ?_⟩
    rcases hr with ⟨rfl, hp0⟩ | ⟨rfl, hl, hp⟩
    · exact Or.inl ⟨rfl, rfl⟩
    · exact Or.inr ⟨rfl, hl, fun _ => hp⟩
  | cons c cs ih =>
    obtain ⟨s', o, r, he, C⟩ := oneOfMany_spec L hL c (hv c (by simp)) h (c.size + 2) s E room i hm
      (by omega)
    simp only [encodeCommands]
    rw [he]
    have hb := C.bound
    rcases C.cases with ⟨rfl, h0, i'⟩ | ⟨rfl, hl, hs', i'⟩
    · have hmz := midway_zero (applyCmd h c) cs s' h0
      obtain ⟨s'', o', r, rest, h', he, hsf, hz', hb', hex, i'', hm'', hr⟩ :=
        ih (fun x hx => hv x (by simp [hx])) (applyCmd h c) s' (E ++ o) (room - o.length)
          (by rw [hmz.1]; exact i') hmz.2 (fun _ => h0)
      simp only
      rw [he]
      refine ⟨s'', o ++ o', r, rest, h', rfl, hsf.trans (List.suffix_cons _ _), hz', by rw [List.length_append]; omega, hex,
        by rw [← List.append_assoc]; exact i'', hm'', ?_⟩
      rcases hr with hr | ⟨hr, hl, hp⟩
      · exact Or.inl hr
      · exact Or.inr ⟨hr, by rw [List.length_append]; omega, hp⟩
    · exact ⟨s', o, .more, c :: cs, h, rfl, List.suffix_refl _, fun h => (by cases h), hb, rfl, i', hs',
        Or.inr ⟨rfl, hl, fun h => (by cases h)⟩⟩

/-- The recoder between two calls. -/
structure RcOk (ring : List UInt8) (s : St) (rest told : List Recode.Cmd) (out : List UInt8) : Prop where
  hist : ∃ h, Inv ring.length s out (midway h rest s) ∧ expand h rest = expand ring told
  mid : MidOk rest s
  none : rest = [] → s.sub = 0
  valid : ∀ c ∈ rest, Valid ring.length c

/-- The bytes still to come. -/
def coming (ring : List UInt8) (told : List Recode.Cmd) (out : List UInt8) : Nat :=
  ((expand ring told).drop ring.length).length - out.length

theorem drop_of_suffix {α : Type} {a b : List α} (h : a <:+ b) : b.drop (b.length - a.length) = a := by
  obtain ⟨t, rfl⟩ := h
  rw [List.length_append, Nat.add_sub_cancel, List.drop_left]

theorem coming_lt {ring : List UInt8} {told : List Recode.Cmd} {out o : List UInt8}
    (h : out ++ o <+: (expand ring told).drop ring.length) (ho : o ≠ []) : coming ring told (out ++ o) < coming ring told out := by
  have h1 := h.length_le
  have h2 := List.length_pos_iff.2 ho
  unfold coming
  rw [List.length_append] at h1 ⊢
  omega

theorem recoder_tells (ring : List UInt8) (hr : 1 < ring.length) {size : Nat} (hsz : 0 < size) :
    Tells recoder size (Valid ring.length) (RcOk ring) (fun s told out => Inv ring.length s out (expand ring told))
      (fun told file => file = (expand ring told).drop ring.length) (· < ·) (fun _ _ told out => coming ring told out)
      (· < ·) (fun _ told out => coming ring told out) := by
  refine ⟨Nat.lt_wfRel.wf, Nat.lt_wfRel.wf, ?_, ?_, ?_, ?_⟩
  · rintro s rest told out ⟨⟨h, i, hx⟩, hm, hz, hv⟩ hne
    obtain ⟨s', o, r, rest', h', k1, k2, k3, k4, k5, k6, k7, k8⟩ := encodeCommands_left _ hr rest hv h s out size i hm hz
    refine ⟨0, s', rest.length - rest'.length, o, codeOf r, fun fuel _ => ?_, ?_, ?_⟩
    · simp only [recoder, k1]
    · rw [drop_of_suffix k2]
      exact ⟨⟨h', k6, k5.trans hx⟩, k7, k3, fun c hc => hv c (k2.subset hc)⟩
    · rcases k8 with ⟨rfl, rfl⟩ | ⟨rfl, hl, -⟩
      · exact .inl ⟨rfl, by simp⟩
      · have ho : o ≠ [] := by
          intro h0
          rw [h0, List.length_nil] at hl
          omega
        refine .inr ⟨rfl, ho, coming_lt ?_ ho⟩
        rw [← hx, ← k5]
        exact k6.prefix (midway_prefix _ _ _ k7)
  · rintro s told out xs ⟨⟨h, i, hx⟩, hm, hz, hv⟩ hok
    have h0 := hz rfl
    have hmz := midway_zero h xs s h0
    refine ⟨⟨h, by rw [hmz.1]; exact i, ?_⟩, hmz.2, fun _ => h0, hok⟩
    have : h = expand ring told := hx
    rw [this]
    simp only [expand, List.foldl_append]
  · rintro s told out ⟨⟨h, i, hx⟩, hm, hz, hv⟩
    rw [← hx]
    exact i
  · rintro s told out i
    obtain ⟨s', o, r, k1, k2, k3, k4, k5, k6⟩ := i.flush size
    refine ⟨0, s', o, codeOf r, fun fuel _ => by simp only [recoder, k1, Option.map_some], k2, ?_⟩
    rcases k6 with ⟨rfl, hp⟩ | ⟨rfl, hl, -⟩
    · left
      have := k2.bytes
      rw [pending_nil k2.good hp, List.append_nil] at this
      exact ⟨rfl, this⟩
    · have ho : o ≠ [] := by
        intro h0
        rw [h0, List.length_nil] at hl
        omega
      exact .inr ⟨rfl, ho, coming_lt (k2.prefix ⟨[], (List.append_nil _).symm⟩) ho⟩

theorem rcOk_new (ring : List UInt8) (hr : 1 < ring.length) : RcOk ring (.new ring) [] [] [] :=
  ⟨⟨ring, new_inv ring hr, rfl⟩, trivial, fun _ => rfl, by simp⟩

end

/-! ## The compressor -/

section
open Divans.Compressor Divans.Pipe Divans.Eng

/-- The compressor between two calls. -/
structure CpOk (g : Cfg) (c : Comp) (rest told : List Item) (out : List UInt8) : Prop where
  idle : Idle c
  eng : ∃ done, EngOk g c.eng out done ∧ done ++ rest = told
  cur : ∀ y r, c.eng.cur = some (y, r) → rest.head? = some y
  valid : ∀ x ∈ told, x.Valid g.o g.dw g.ring
  hdr : c.asm.hdr = true ∨ c = .new g.window ∧ out = [] ∧ told = rest

/-- The compressor while it is flushed. -/
def CpEnd (g : Cfg) (c : Comp) (told : List Item) (out : List UInt8) : Prop :=
  (∀ x ∈ told, x.Valid g.o g.dw g.ring) ∧
  (CmdClosing g c out told ∨
    told = [] ∧ ∃ all, Closing g c out all ∧ RawCmd.Complete (List.replicate g.ring 0) [] [] all)

theorem compressor_tells {g : Cfg} (hpm : (Item.pm rawPm).Valid g.o g.dw g.ring) {size : Nat} (hsz : 0 < size) :
    Tells (compressor g.o g.dw) size (fun x => x.Valid g.o g.dw g.ring) (CpOk g) (CpEnd g)
      (fun told file => Recode.InHistory 0 (told.map (Item.ringCmd g.dw)) → Restores g.dw file (original g.dw told))
      (Prod.Lex (· < ·) lt5) (fun c rest _ _ => (rest.length, mu c)) lt7 (fun c _ _ => rank c) := by
  refine ⟨WellFounded.prod_lex Nat.lt_wfRel.wf lt5_wf, lt7_wf, ?_, ?_, ?_, ?_⟩
  · rintro c rest told out ⟨hi, ⟨done, he, hd⟩, hc, hv, hh⟩ hne
    obtain ⟨f0, c', n, o, code, k1, k2, k3, k4, k5, k6, k7, k8⟩ := encodeCommands_call hi hne he
      (fun x hx => hv x (by rw [← hd]; exact List.mem_append_right _ hx)) hc size
    refine ⟨f0, c', n, o, code, k1, ⟨k2, ⟨_, k4, ?_⟩, k6, hv, .inl k3⟩, ?_⟩
    · rw [List.append_assoc, List.take_append_drop]; exact hd
    · rcases k7 with ⟨rfl, hn, -⟩ | ⟨rfl, hn, hl⟩
      · exact .inl ⟨rfl, hn⟩
      · refine .inr ⟨rfl, ?_, ?_⟩
        · intro h0
          rw [h0, List.length_nil] at hl
          omega
        · rw [Prod.lex_def, List.length_drop]
          rcases k8 hsz with h | h
          · left; simp only; omega
          · by_cases hn0 : n = 0
            · right; subst hn0; exact ⟨rfl, h⟩
            · left; simp only; omega
  · rintro c told out xs ⟨hi, ⟨done, he, hd⟩, hc, hv, hh⟩ hok
    have hcn : ∀ y r, c.eng.cur ≠ some (y, r) := fun y r h => by cases hc y r h
    refine ⟨hi, ⟨done, he, by rw [← hd, List.append_nil]⟩, fun y r h => absurd h (hcn y r), ?_, ?_⟩
    · intro x hx
      rcases List.mem_append.1 hx with hx | hx
      · exact hv x hx
      · exact hok x hx
    · rcases hh with hh | ⟨h1, h2, h3⟩
      · exact .inl hh
      · exact .inr ⟨h1, h2, by rw [h3]; rfl⟩
  · rintro c told out ⟨hi, ⟨done, he, hd⟩, hc, hv, hh⟩
    refine ⟨hv, ?_⟩
    rw [List.append_nil] at hd
    subst hd
    rcases hh with hh | ⟨rfl, rfl, rfl⟩
    · refine .inl ⟨hi, hh, .inl ⟨he, ?_⟩⟩
      cases hcc : c.eng.cur with
      | none => rfl
      | some y => cases hc y.1 y.2 hcc
    · exact .inr ⟨rfl, (pushing_new g).closing⟩
  · rintro c told out ⟨hv, h⟩
    rcases h with h | ⟨rfl, all, h, h6⟩
    · obtain ⟨c', o, code, k1, k2, k3⟩ := flush_call h size
      refine ⟨0, c', o, code, fun fuel _ => k1 fuel, ⟨hv, .inl k2⟩, ?_⟩
      rcases k3 with ⟨rfl, a, b, d⟩ | ⟨rfl, hl, hlt⟩
      · exact .inl ⟨rfl, fun hin => finished a b d hv hin⟩
      · refine .inr ⟨rfl, ?_, hlt hsz⟩
        intro h0
        rw [h0, List.length_nil] at hl
        omega
    · obtain ⟨f0, c', o, code, k1, k2⟩ := flush_spec hpm h size
      refine ⟨f0, c', o, code, k1, ⟨hv, .inr ⟨rfl, all, k2.ok, h6⟩⟩, ?_⟩
      rcases k2.cases with ⟨rfl, a, b, d⟩ | ⟨rfl, hl, hlt⟩
      · exact .inl ⟨rfl, fun _ => Ffi.raw_restores hpm (pushing_new g) h6 a b d (by simp)⟩
      · refine .inr ⟨rfl, ?_, hlt hsz⟩
        intro h0
        rw [h0, List.length_nil] at hl
        omega

theorem cpOk_new (g : Cfg) : CpOk g (.new g.window) [] [] [] :=
  ⟨idle_new _, ⟨[], engOk_new g, rfl⟩, fun y r h => (by cases h), by simp, .inr ⟨rfl, rfl, rfl⟩⟩

end

end Divans.Ir
