import Verif.ExMain
import Verif.FfiBrotliProps
import Verif.CVecProps
import Mathlib.Tactic.Tauto

/-!
# C96: the example program of the C interface, from its command line to its report
-/

namespace Divans.ExMain

open Divans.Ffi Divans.CVec

/-! ## What the command line sets -/

/-- The selectors of `set_options` with the values it gives them. -/
def Used (s : Nat × Nat) : Prop :=
  s.1 = 1 ∨ s.1 = 2 ∨ s.1 = 4 ∨ (s.1 = 5 ∧ s.2 = 0) ∨ (s.1 = 7 ∧ s.2 = 1) ∨ s.1 = 8 ∨ s.1 = 9 ∨ s.1 = 10 ∨ s.1 = 17 ∨ s.1 = 19

/-- Settings that are accepted. -/
def Taken (s : Nat × Nat) : Prop := (s.1 = 8 → s.2 < 15) ∧ (s.1 = 9 → s.2 ≤ 8)

theorem set_one {s : Nat × Nat} (hu : Used s) (o : Options) :
    (¬ Taken s ∧ setOption o s.1 s.2 = none) ∨
    (Taken s ∧ ∃ o', setOption o s.1 s.2 = some o' ∧ o'.select = (if s.1 = 5 then .internal else o.select) ∧
      o'.window = (if s.1 = 2 then some (asI32 s.2) else o.window) ∧ o'.mixing = (if s.1 = 4 then some (s.2 % 256) else o.mixing) ∧
      o'.priorDepth = o.priorDepth) := by
  obtain ⟨k, v⟩ := s
  simp only [Used] at hu
  unfold Taken
  rcases hu with rfl | rfl | rfl | ⟨rfl, rfl⟩ | ⟨rfl, rfl⟩ | rfl | rfl | rfl | rfl | rfl
  all_goals try exact .inr ⟨⟨by (intro h; cases h), by (intro h; cases h)⟩, _, rfl, rfl, rfl, rfl, rfl⟩
  · by_cases h : v < 15
    · refine .inr ⟨⟨fun _ => h, by (intro h; cases h)⟩, ?_⟩
      have hs : ∃ sp, palette[v]? = some sp := ⟨palette[v]'h, List.getElem?_eq_getElem h⟩
      obtain ⟨sp, hs⟩ := hs
      have e : ∃ ad, setSpeed o 3 v = some { o with adaptation := ad } := ⟨_, by unfold setSpeed; rw [hs]; rfl⟩
      obtain ⟨ad, e⟩ := e
      exact ⟨_, e, rfl, rfl, rfl, rfl⟩
    · refine .inl ⟨fun h' => h (h'.1 rfl), show setSpeed o 3 v = none from ?_⟩
      unfold setSpeed
      rw [List.getElem?_eq_none (show palette.length ≤ v from Nat.le_of_not_lt h)]
      rfl
  · by_cases h : v ≤ 8
    · exact .inr ⟨⟨by (intro h; cases h), fun _ => h⟩, _, show (if v ≤ 8 then _ else none) = some _ from if_pos h, rfl, rfl, rfl, rfl⟩
    · exact .inl ⟨fun h' => h (h'.2 rfl), show (if v ≤ 8 then _ else none) = none from if_neg h⟩

/-- The values set with a selector. -/
def valuesOf (k : Nat) (L : List (Nat × Nat)) : List Nat := L.filterMap fun s => if s.1 = k then some s.2 else none

theorem valuesOf_cons (k : Nat) (s : Nat × Nat) (L : List (Nat × Nat)) :
    valuesOf k (s :: L) = (if s.1 = k then [s.2] else []) ++ valuesOf k L := by
  unfold valuesOf
  by_cases h : s.1 = k
  · rw [List.filterMap_cons_some (by rw [if_pos h]), if_pos h]; rfl
  · rw [List.filterMap_cons_none (by rw [if_neg h]), if_neg h]; rfl

theorem last_append {α : Type} (a : Option α) (x b : List α) : (x ++ b).getLast?.or a = b.getLast?.or (x.getLast?.or a) := by
  rw [List.getLast?_append]
  cases b.getLast? <;> rfl

theorem set_all : ∀ (L : List (Nat × Nat)), (∀ s ∈ L, Used s) → ∀ o : Options,
    (¬ (∀ s ∈ L, Taken s) ∧ setAll o L = none) ∨
    ((∀ s ∈ L, Taken s) ∧ ∃ o', setAll o L = some o' ∧ o'.select = (if valuesOf 5 L = [] then o.select else .internal) ∧
      o'.window = (((valuesOf 2 L).map asI32).getLast?.or o.window) ∧
      o'.mixing = (((valuesOf 4 L).map (· % 256)).getLast?.or o.mixing) ∧ o'.priorDepth = o.priorDepth) := by
  intro L
  induction L with
  | nil => intro _ o; exact .inr ⟨by (intro s h; cases h), o, rfl, rfl, rfl, rfl, rfl⟩
  | cons s L ih =>
    intro hu o
    rcases set_one (hu s List.mem_cons_self) o with ⟨h1, h2⟩ | ⟨h1, o1, h2, h3, h4, h5, h6⟩
    · exact .inl ⟨fun h => h1 (h s List.mem_cons_self), show (setOption o s.1 s.2).bind _ = none by rw [h2]; rfl⟩
    · have e : setAll o (s :: L) = setAll o1 L := show (setOption o s.1 s.2).bind _ = _ by rw [h2]; rfl
      rw [e]
      rcases ih (fun x hx => hu x (List.mem_cons_of_mem _ hx)) o1 with ⟨g1, g2⟩ | ⟨g1, o', g2, g3, g4, g5, g6⟩
      · exact .inl ⟨fun h => g1 fun x hx => h x (List.mem_cons_of_mem _ hx), g2⟩
      · refine .inr ⟨?_, o', g2, ?_, ?_, ?_, g6.trans h6⟩
        · intro x hx
          rcases List.mem_cons.1 hx with rfl | hx
          · exact h1
          · exact g1 x hx
        · rw [g3, h3, valuesOf_cons]
          by_cases h : s.1 = 5
          · have hn : ¬ ([s.2] ++ valuesOf 5 L = []) := by simp
            rw [if_pos h, if_pos h, if_neg hn]
            split <;> rfl
          · rw [if_neg h, if_neg h]; rfl
        · rw [g4, h4, valuesOf_cons, List.map_append, last_append]
          by_cases h : s.1 = 2
          · rw [if_pos h, if_pos h]; rfl
          · rw [if_neg h, if_neg h]; rfl
        · rw [g5, h5, valuesOf_cons, List.map_append, last_append]
          by_cases h : s.1 = 4
          · rw [if_pos h, if_pos h]; rfl
          · rw [if_neg h, if_neg h]; rfl

theorem used_pass1 (a : List UInt8) : ∀ s ∈ pass1 a, Used s := by
  intro s hs
  unfold pass1 at hs
  simp only [List.mem_append, List.mem_ite_nil_right, List.mem_cons, List.not_mem_nil, or_false] at hs
  unfold Used
  rcases hs with ((((((⟨-, rfl⟩ | ⟨-, rfl⟩) | ⟨-, rfl⟩) | ⟨-, rfl⟩) | ⟨-, rfl⟩) | ⟨-, rfl | rfl⟩) | ⟨-, rfl⟩) | ⟨-, rfl⟩ <;> simp

theorem used_pass2 (u : Bool) (a : List UInt8) : ∀ s ∈ pass2 u a, Used s := by
  intro s hs
  unfold pass2 at hs
  simp only [List.mem_append, List.mem_ite_nil_right, List.mem_cons, List.not_mem_nil, or_false] at hs
  unfold Used
  rcases hs with ⟨-, ⟨-, rfl⟩ | ⟨-, rfl⟩⟩ <;> simp

theorem used_pass3 (a : List UInt8) : ∀ s ∈ pass3 a, Used s := by
  intro s hs
  unfold pass3 at hs
  have : s.1 = 4 := by
    split at hs
    · split at hs <;> (rw [List.mem_singleton] at hs; rw [hs])
    · cases hs
  exact .inr (.inr (.inl this))

theorem used_settings (args : List (List UInt8)) : ∀ s ∈ settings args, Used s := by
  intro s hs
  unfold settings at hs
  rcases List.mem_append.1 hs with hs | hs
  · rcases List.mem_append.1 hs with hs | hs
    · obtain ⟨a, -, h⟩ := List.mem_flatMap.1 hs
      exact used_pass1 a s h
    · obtain ⟨a, -, h⟩ := List.mem_flatMap.1 hs
      exact used_pass2 _ a s h
  · obtain ⟨a, -, h⟩ := List.mem_flatMap.1 hs
    exact used_pass3 a s h

/-- What makes the program go on: the number behind `-a` is less than 15, that behind `-s` at most 8. -/
def Fine (args : List (List UInt8)) : Prop :=
  ∀ a ∈ args, ([45, 97] <+: a → num (a.drop 2) < 15) ∧ ([45, 115] <+: a → a = [45, 115] ∨ num (a.drop 2) ≤ 8)

theorem starts_iff {p a : List UInt8} : starts p a = true ↔ p <+: a := List.isPrefixOf_iff_prefix

theorem taken_iff (args : List (List UInt8)) : (∀ s ∈ settings args, Taken s) ↔ Fine args := by
  constructor
  · intro h a ha
    constructor
    · intro hp
      have hm : ((8 : Nat), num (a.drop 2)) ∈ settings args := by
        refine List.mem_append_left _ (List.mem_append_left _ (List.mem_flatMap.2 ⟨a, ha, ?_⟩))
        unfold pass1
        simp only [List.mem_append, List.mem_ite_nil_right, List.mem_cons, List.not_mem_nil, or_false]
        exact .inl (.inl (.inl (.inr ⟨starts_iff.2 hp, by simp⟩)))
      exact (h _ hm).1 rfl
    · intro hp
      by_cases he : a = [45, 115]
      · exact .inl he
      · have hm : ((9 : Nat), num (a.drop 2)) ∈ settings args := by
          refine List.mem_append_left _ (List.mem_append_right _ (List.mem_flatMap.2 ⟨a, ha, ?_⟩))
          unfold pass2
          rw [if_pos (starts_iff.2 hp), if_pos he]
          exact List.mem_append_right _ (List.mem_singleton.2 rfl)
        exact .inr ((h _ hm).2 rfl)
  · intro h s hs
    unfold settings at hs
    rcases List.mem_append.1 hs with hs | hs
    · rcases List.mem_append.1 hs with hs | hs
      · obtain ⟨a, ha, hs⟩ := List.mem_flatMap.1 hs
        unfold pass1 at hs
        simp only [List.mem_append, List.mem_ite_nil_right, List.mem_cons, List.not_mem_nil, or_false] at hs
        unfold Taken
        rcases hs with ((((((⟨-, rfl⟩ | ⟨-, rfl⟩) | ⟨-, rfl⟩) | ⟨-, rfl⟩) | ⟨hp, rfl⟩) | ⟨-, rfl | rfl⟩) | ⟨-, rfl⟩) | ⟨-, rfl⟩
        all_goals first
          | exact ⟨fun _ => (h a ha).1 (starts_iff.1 hp), by (intro h; cases h)⟩
          | exact ⟨by (intro h; cases h), by (intro h; cases h)⟩
      · obtain ⟨a, ha, hs⟩ := List.mem_flatMap.1 hs
        unfold pass2 at hs
        simp only [List.mem_append, List.mem_ite_nil_right, List.mem_cons, List.not_mem_nil, or_false] at hs
        unfold Taken
        rcases hs with ⟨hp, ⟨-, rfl⟩ | ⟨hn, rfl⟩⟩
        · exact ⟨by (intro h; cases h), by (intro h; cases h)⟩
        · exact ⟨by (intro h; cases h), fun _ => ((h a ha).2 (starts_iff.1 hp)).resolve_left hn⟩
    · obtain ⟨a, ha, hs⟩ := List.mem_flatMap.1 hs
      have : s.1 = 4 := by
        unfold pass3 at hs
        split at hs
        · split at hs <;> (rw [List.mem_singleton] at hs; rw [hs])
        · cases hs
      unfold Taken
      exact ⟨by omega, by omega⟩

/-- The numbers given with an option of one letter. -/
def given (p : List UInt8) (args : List (List UInt8)) : List Nat :=
  (args.filter fun a => p.isPrefixOf a).map fun a => num (a.drop 2)

/-- The mixing given with `-m`: the number behind it, or 2. -/
def mixings (args : List (List UInt8)) : List Nat :=
  (args.filter fun a => [45, 109].isPrefixOf a).map fun a => if a = [45, 109] then 2 else num (a.drop 2) % 256

theorem valuesOf_append (k : Nat) (a b : List (Nat × Nat)) : valuesOf k (a ++ b) = valuesOf k a ++ valuesOf k b := List.filterMap_append ..

theorem valuesOf_flatMap (k : Nat) (f : List UInt8 → List (Nat × Nat)) (args : List (List UInt8)) :
    valuesOf k (args.flatMap f) = args.flatMap fun a => valuesOf k (f a) := by
  induction args with
  | nil => rfl
  | cons a t ih => rw [List.flatMap_cons, List.flatMap_cons, valuesOf_append, ih]

theorem valuesOf_ite (k : Nat) (c : Prop) [Decidable c] (L : List (Nat × Nat)) :
    valuesOf k (if c then L else []) = if c then valuesOf k L else [] := by
  split <;> rfl

theorem pass1_values (a : List UInt8) :
    valuesOf 2 (pass1 a) = (if starts [45, 119] a then [num (a.drop 2)] else []) ∧
    valuesOf 5 (pass1 a) = (if starts [45, 108] a then [0] else []) ∧ valuesOf 4 (pass1 a) = [] := by
  unfold pass1
  refine ⟨?_, ?_, ?_⟩ <;>
    (simp only [valuesOf_append, valuesOf_ite, valuesOf_cons, show ∀ k, valuesOf k [] = [] from fun _ => rfl]; simp)

theorem pass2_values (u : Bool) (a : List UInt8) : valuesOf 2 (pass2 u a) = [] ∧ valuesOf 5 (pass2 u a) = [] ∧
    ∀ v ∈ valuesOf 4 (pass2 u a), v = 1 := by
  unfold pass2
  refine ⟨?_, ?_, ?_⟩ <;>
    (simp only [valuesOf_append, valuesOf_ite, valuesOf_cons, show ∀ k, valuesOf k [] = [] from fun _ => rfl]; simp)

theorem pass3_values (a : List UInt8) : valuesOf 2 (pass3 a) = [] ∧ valuesOf 5 (pass3 a) = [] ∧
    (valuesOf 4 (pass3 a)).map (· % 256) = (if starts [45, 109] a then [if a = [45, 109] then 2 else num (a.drop 2) % 256] else []) := by
  unfold pass3
  by_cases h1 : starts [45, 109] a = true
  · simp only [h1, if_true]
    by_cases h2 : a = [45, 109]
    · rw [if_neg (not_not.2 h2), if_pos h2]
      exact ⟨rfl, rfl, rfl⟩
    · rw [if_pos h2, if_neg h2]
      exact ⟨rfl, rfl, rfl⟩
  · rw [if_neg h1, if_neg h1]
    exact ⟨rfl, rfl, rfl⟩

theorem flatMap_nil {α β : Type} {f : α → List β} (h : ∀ a, f a = []) (l : List α) : l.flatMap f = [] := by
  induction l with
  | nil => rfl
  | cons a t ih => rw [List.flatMap_cons, h, ih]; rfl

theorem flatMap_filter {α β : Type} (p : α → Bool) (f : α → β) (l : List α) :
    (l.flatMap fun a => if p a then [f a] else []) = (l.filter p).map f := by
  induction l with
  | nil => rfl
  | cons a t ih =>
    rw [List.flatMap_cons, ih]
    by_cases h : p a = true
    · rw [if_pos h, List.filter_cons_of_pos h]; rfl
    · rw [if_neg h, List.filter_cons_of_neg h]; rfl

/-- **C96.**  What the command line does: an assertion fails when a number behind `-a` or `-s` is too large; otherwise `-l` in front of any
argument means that brotli is not asked for commands, the last `-w` gives the window, the last `-m` the mixing (2 without a number,
1 without `-m`), and the depth of the prior stays as it is. -/
theorem settings_spec (args : List (List UInt8)) :
    (¬ Fine args → setAll .default (settings args) = none) ∧
    (Fine args → ∃ o, setAll .default (settings args) = some o ∧
      o.select = (if ∃ a ∈ args, [45, 108] <+: a then .internal else .commands) ∧
      o.window = (((given [45, 119] args).map asI32).getLast?.or (some 22)) ∧
      o.mixing = ((mixings args).getLast?.or (some 1)) ∧ o.priorDepth = none) := by
  rcases set_all (settings args) (used_settings args) .default with ⟨h1, h2⟩ | ⟨h1, o, h2, h3, h4, h5, h6⟩
  · exact ⟨fun _ => h2, fun h => absurd ((taken_iff args).2 h) h1⟩
  · refine ⟨fun h => absurd ((taken_iff args).1 h1) h, fun _ => ⟨o, h2, ?_, ?_, ?_, h6⟩⟩
    · rw [h3]
      have e : valuesOf 5 (settings args) = ((args.filter (starts [45, 108])).map fun _ => 0) := by
        unfold settings
        rw [valuesOf_append, valuesOf_append, valuesOf_flatMap, valuesOf_flatMap, valuesOf_flatMap,
          flatMap_nil (fun a => (pass2_values _ a).2.1), flatMap_nil (fun a => (pass3_values a).2.1), List.append_nil, List.append_nil,
          ← flatMap_filter]
        congr 1
        funext a
        exact (pass1_values a).2.1
      rw [e]
      by_cases hl : ∃ a ∈ args, [45, 108] <+: a
      · rw [if_pos hl, if_neg]
        obtain ⟨a, ha, hp⟩ := hl
        intro hn
        rw [List.map_eq_nil_iff, List.filter_eq_nil_iff] at hn
        exact hn a ha (starts_iff.2 hp)
      · rw [if_neg hl, if_pos]
        · rfl
        · rw [List.map_eq_nil_iff, List.filter_eq_nil_iff]
          exact fun a ha hp => hl ⟨a, ha, starts_iff.1 hp⟩
    · rw [h4]
      have e : valuesOf 2 (settings args) = given [45, 119] args := by
        unfold settings given
        rw [valuesOf_append, valuesOf_append, valuesOf_flatMap, valuesOf_flatMap, valuesOf_flatMap,
          flatMap_nil (fun a => (pass2_values _ a).1), flatMap_nil (fun a => (pass3_values a).1), List.append_nil, List.append_nil,
          ← flatMap_filter]
        congr 1
        funext a
        exact (pass1_values a).1
      rw [e]
      rfl
    · rw [h5]
      have e3 : (valuesOf 4 (args.flatMap pass3)).map (· % 256) = mixings args := by
        unfold mixings
        rw [valuesOf_flatMap, List.map_flatMap, ← flatMap_filter]
        congr 1
        funext a
        exact (pass3_values a).2.2
      unfold settings
      rw [valuesOf_append, valuesOf_append, List.map_append, e3, last_append]
      congr 1
      rw [valuesOf_flatMap, flatMap_nil (fun a => (pass1_values a).2.2), List.nil_append]
      have e2 : ∀ v ∈ ((valuesOf 4 (args.flatMap (pass2 (args.any (starts [45, 99, 109]))))).map (· % 256)), v = 1 := by
        intro v hv
        obtain ⟨w, hw, rfl⟩ := List.mem_map.1 hv
        rw [valuesOf_flatMap] at hw
        obtain ⟨a, -, hw⟩ := List.mem_flatMap.1 hw
        rw [(pass2_values _ a).2.2 w hw]
      generalize List.map (· % 256) (valuesOf 4 (args.flatMap (pass2 (args.any (starts [45, 99, 109]))))) = l at e2
      cases hg : l.getLast? with
      | none => rfl
      | some v => rw [e2 v (List.mem_of_getLast? hg)]; rfl

/-! ## From the command line to the report -/

/-- The size of the window that a command line asks for, in bits. -/
def bits (args : List (List UInt8)) : Nat := (Frame.windowOf (((given [45, 119] args).map asI32).getLast?.or (some 22))).toNat

theorem compare_line {data file back : List UInt8} :
    (∃ size, compare data file back = .line (report data.length size)) ↔ back = data := by
  unfold compare
  by_cases h : back = data
  · rw [if_neg (not_not.2 (congrArg _ h)), if_neg (not_not.2 h)]
    exact ⟨fun _ => h, fun _ => ⟨_, rfl⟩⟩
  · refine ⟨fun ⟨n, e⟩ => ?_, fun e => absurd e h⟩
    by_cases hl : back.length = data.length
    · rw [if_neg (not_not.2 hl), if_pos h] at e
      cases e
    · rw [if_pos hl] at e
      cases e

/-- **C96.**  With `-l`, settings that are accepted, a mixing below 8, any files, any contents of the buffers and any window: the program
ends; it prints its line exactly when the length is one that is kept (C94), and aborts otherwise. -/
theorem without_brotli {b : Other} (dw : Nat → Nat → Nat → List UInt8) (buf buf' : List UInt8) (hb : buf ≠ []) (hb' : buf' ≠ [])
    (skip : Bool) (fs : List UInt8 → Option (List UInt8)) (args : List (List UInt8)) (hf : Fine args) (hl : ∃ a ∈ args, [45, 108] <+: a)
    (hm : ∀ m, (mixings args).getLast? = some m → m < 8) {data : List UInt8} (hd : input fs args = some data) :
    ∃ f0 out, (∀ fuel, f0 ≤ fuel → main b dw fuel buf buf' skip fs args = some out) ∧
      ((∃ size, out = .line (report data.length size)) ↔ RawCmd.Fair (2 ^ bits args) data.length) ∧
      (¬ RawCmd.Fair (2 ^ bits args) data.length → (∃ k, out = .sizes k data.length) ∨ out = .contents) := by
  obtain ⟨o, h1, h2, h3, h4, h5⟩ := (settings_spec args).2 hf
  rw [if_pos hl] at h2
  have hmix : o.mixing.getD 0 < 8 := by
    rw [h4]
    cases hg : (mixings args).getLast? with
    | none => decide
    | some m => exact hm m hg
  obtain ⟨f0, file, back, g1, g2⟩ := example_exact (b := b) dw (settings args) o h1 h2 hmix (by rw [h5]; decide) buf buf' hb hb' data skip []
  rw [List.append_nil] at g1
  refine ⟨f0, compare data file back, fun fuel hfu => ?_, ?_, ?_⟩
  · unfold main
    rw [hd, h1]
    simp only [(g1 fuel hfu).1, (g1 fuel hfu).2]
    rfl
  · rw [compare_line, g2, h3]
    rfl
  · intro hn
    have hne : back ≠ data := by
      intro e
      apply hn
      have := g2.1 e
      rw [h3] at this
      exact this
    unfold compare
    by_cases hlen : back.length = data.length
    · rw [if_neg (not_not.2 hlen), if_pos hne]
      exact .inr rfl
    · rw [if_pos hlen]
      exact .inl ⟨_, rfl⟩

/-- **C96.**  Without `-l`, brotli's encoder keeping its contract (C70, C93), settings that are accepted, any files and any contents of the
buffers: the program ends and prints its line, with the length of the input and the size of a file that is decompressed to it. -/
theorem with_brotli {σ : Type} {b : Hybrid.Brotli σ} {I : Bool → σ → List UInt8 → List Pipe.Item → Prop} {m : σ → Nat} {boot : Options → σ}
    {dw : Nat → Nat → Nat → List UInt8} (buf buf' : List UInt8) (hb : buf ≠ []) (hb' : buf' ≠ []) (skip : Bool)
    (fs : List UInt8 → Option (List UInt8)) (args : List (List UInt8)) {o : Options} {co : Codec.Opts}
    (ho : setAll .default (settings args) = some o) (hl : ¬ ∃ a ∈ args, [45, 108] <+: a) (hc : codecOpts o = some co)
    (hm : Hybrid.Meets b ⟨co, dw, o.window⟩ I m) (h0 : I false (boot o) [] []) {data : List UInt8} (hd : input fs args = some data) :
    ∃ f0 file, ∀ fuel, f0 ≤ fuel →
      main (withBrotli b boot dw fuel) dw fuel buf buf' skip fs args = some (.line (report data.length (file : List UInt8).length)) ∧
      decompress dw fuel buf' skip file = some (data, 0) := by
  have hsel : o.select ≠ .internal := by
    have hf : Fine args := by
      by_contra hn
      rw [(settings_spec args).1 hn] at ho
      cases ho
    obtain ⟨o', h1, h2, -⟩ := (settings_spec args).2 hf
    rw [ho] at h1
    cases h1
    rw [h2, if_neg hl]
    decide
  obtain ⟨f0, file, g⟩ := default_example (b := b) (boot := boot) hsel hc hm h0 buf buf' hb hb' data skip []
  rw [List.append_nil] at g
  refine ⟨f0, file, fun fuel hfu => ⟨?_, (g fuel hfu).2⟩⟩
  unfold main
  rw [hd, ho]
  simp only [(g fuel hfu).1, (g fuel hfu).2]
  unfold compare
  simp

/-- **C96.**  The cases in which nothing is compressed: an empty file, and a number that is refused. -/
theorem not_begun (b : Other) (dw : Nat → Nat → Nat → List UInt8) (fuel : Nat) (buf buf' : List UInt8) (skip : Bool)
    (fs : List UInt8 → Option (List UInt8)) (args : List (List UInt8)) :
    (input fs args = none ↔ ∃ name, firstArg args = some name ∧ fs name = some []) ∧
    (input fs args = none → main b dw fuel buf buf' skip fs args = some .empty) ∧
    (input fs args ≠ none → ¬ Fine args → main b dw fuel buf buf' skip fs args = some .refused) := by
  refine ⟨?_, fun h => by unfold main; rw [h], fun h hn => ?_⟩
  · unfold input
    cases h1 : firstArg args with
    | none => simp
    | some name =>
      simp only
      cases h2 : fs name with
      | none => simp [h2]
      | some c => by_cases hc : c = [] <;> simp [h2, hc]
  · unfold main
    cases hi : input fs args with
    | none => exact absurd hi h
    | some data =>
      simp only
      rw [(settings_spec args).1 hn]

/-- **C96, finding.**  When the named file cannot be opened, the program says nothing and reports on its built-in text. -/
theorem misspelt (fs : List UInt8 → Option (List UInt8)) (args : List (List UInt8)) (name : List UInt8) (h : firstArg args = some name)
    (hn : fs name = none) : input fs args = some text := by
  unfold input
  rw [h]
  simp only
  rw [hn]

/-- The built-in text is kept with every window. -/
theorem text_fair (args : List (List UInt8)) : RawCmd.Fair (2 ^ bits args) text.length := by
  have h0 := (Frame.window_clamped (((given [45, 119] args).map asI32).getLast?.or (some 22))).1
  have h : 2 ^ 10 ≤ 2 ^ bits args := Nat.pow_le_pow_right (by decide) h0
  have e : text.length = 352 := by decide +kernel
  rw [e]
  exact RawCmd.fair_three (Nat.le_trans (by decide) h) (Nat.le_trans (by decide) (Nat.sub_le_sub_right (Nat.mul_le_mul_left 3 h) 2))

/-- **C96, finding.**  `-as` is taken as `-a` too, with the number 0: all four speeds of adaptation become those of the first entry of the
table, with which no symbol changes a distribution as it begins: nothing is learnt. -/
theorem adaptive_stride : (∃ o, setAll .default (settings [[45, 97, 115]]) = some o ∧ o.strideQuality = some 2 ∧
      o.adaptation = some (⟨0, 1024⟩, ⟨0, 1024⟩, ⟨0, 1024⟩, ⟨0, 1024⟩)) ∧
    ∀ sym, Cdf.blend Cdf.default sym ⟨0, 1024⟩ = Cdf.default := by
  refine ⟨⟨_, rfl, rfl, rfl⟩, fun sym => ?_⟩
  have e : ∀ i : Fin 16, Num.i16 (Cdf.default i + 0) = Cdf.default i := by decide +kernel
  have e1 : (fun i : Fin 16 => if sym ≤ i.val then Num.i16 (Cdf.default i + 0) else Cdf.default i) = Cdf.default := by
    funext i
    rw [e]
    split <;> rfl
  unfold Cdf.blend
  simp only
  rw [e1, if_neg (by decide +kernel)]

/-- **C96, finding.**  `-cm` without a number forces the literal context mode 0. -/
theorem context_map : ∃ o, setAll .default (settings [[45, 99, 109]]) = some o ∧ o.contextMap = true ∧ o.contextMode = some 0 ∧
    Options.default.contextMode = none := ⟨_, rfl, rfl, rfl, rfl⟩

/-! ## The theorems are not vacuous -/

/-- `-l -w10 f` with a file of 3071 bytes: the program aborts; with one of 3070 bytes it prints its line. -/
theorem example_aborts {b : Other} (dw : Nat → Nat → Nat → List UInt8) (buf buf' : List UInt8) (hb : buf ≠ []) (hb' : buf' ≠ [])
    (skip : Bool) (data : List UInt8) (hd : data.length = 3070 ∨ data.length = 3071) :
    ∃ f0 out, (∀ fuel, f0 ≤ fuel → main b dw fuel buf buf' skip (fun _ => some data) [[45, 108], [45, 119, 49, 48], [102]] = some out) ∧
      ((∃ size, out = .line (report data.length size)) ↔ data.length = 3070) := by
  have hne : data ≠ [] := by rintro rfl; simp at hd
  have hbits : bits [[45, 108], [45, 119, 49, 48], [102]] = 10 := by decide +kernel
  obtain ⟨f0, out, h1, h2, -⟩ := without_brotli (b := b) dw buf buf' hb hb' skip (fun _ => some data) [[45, 108], [45, 119, 49, 48], [102]]
    (by unfold Fine; decide +kernel) (by decide +kernel) (by decide +kernel) (data := data)
    (show (if data = [] then none else some data) = some data by rw [if_neg hne])
  refine ⟨f0, out, h1, h2.trans ?_⟩
  rw [hbits]
  unfold RawCmd.Fair
  rcases hd with e | e <;> rw [e] <;> decide +kernel

/-- Without arguments, and an encoder in the place of brotli's that keeps the contract: the report on the built-in text. -/
example : ∃ f0 file, ∀ fuel, f0 ≤ fuel →
    main (withBrotli (Hybrid.toy true) (fun _ => (true, false)) demoWords fuel) demoWords fuel [0] [0] false (fun _ => none) [] =
      some (.line (report text.length (file : List UInt8).length)) ∧ decompress demoWords fuel [0] false file = some (text, 0) := by
  obtain ⟨co, hco, hval⟩ := usable_opts (o := { Options.default with select := .internal }) ⟨rfl, by decide, by decide, tuned_default⟩
  exact with_brotli (b := Hybrid.toy true) (boot := fun _ => (true, false)) (o := .default) (co := co) (I := Hybrid.toyInv demoWords)
    (m := fun _ => 0) [0] [0] (by simp) (by simp) false (fun _ => none) [] rfl (by simp) hco (Hybrid.toy_meets true (hval demoWords _))
    ⟨by simp, rfl, fun _ => rfl⟩ rfl

end Divans.ExMain
