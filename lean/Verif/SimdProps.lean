import Verif.SimdLemmas
import Verif.SimdCrc

/-!
Property theorem C60: builds with different implementations of the distributions understand each
other.

All of the crate is generic in the type of the distributions, which features choose
(`DefaultInternalCDF16`, /repo/src/interface.rs:146-153).  The theorems are about the coder of
adaptive nibbles over any such type (`Impl`); the sender's slots and the receiver's nibbles are what
the rest of the crate sees of it.
-/
namespace Divans.Simd
open Divans.Cdf Divans.Num Divans.Adaptive Divans.Weights

/-! ### Implementations that agree with the counts -/

/-- An implementation whose distributions stand for sixteen counts, and which computes with them
what the scalar code computes. -/
structure Faithful (I : Impl) where
  abs : I.σ → Cdf
  default : abs I.default = Cdf.default
  blend : ∀ o sym sp, sym < 16 → abs (I.blend o sym sp) = Cdf.blend (abs o) sym sp
  average : ∀ a b w, Healthy (abs a) → Healthy (abs b) → 0 ≤ w → w ≤ 2 ^ 15 →
    abs (I.average a b w) = Cdf.average (abs a) (abs b) w
  symRange : ∀ o, Usable (abs o) → ∀ sym, sym < 16 → I.symRange o sym = (Opt.new (abs o)).symRange sym
  lookup : ∀ o, Usable (abs o) → ∀ off : Nat, off < 2 ^ 15 → I.lookup o off = (Opt.new (abs o)).lookup off

/-- The vector code. -/
def simd_faithful (v : Variant) (ad : Bool) : Faithful (simdImpl v ad) where
  abs := SCdf.abs
  default := abs_default
  blend := fun o sym sp h => abs_blend o sym (by omega) sp
  average := fun a b w ha hb h1 h2 => abs_average a b ha hb w h1 h2
  symRange := fun o hu sym hs => range_same o hu sym hs
  lookup := fun o hu off h => lookup_same v ad o hu off h

theorem lookupSym_lt (c : Cdf) (off : Int) : lookupSym c off < 16 := by
  have : ∀ (n s : Nat), firstAbove c (i16 ((off * Cdf.max c) >>> 15)) n s ≤ s + n := by
    intro n
    induction n with
    | zero => intro s; simp [firstAbove]
    | succ n ih =>
      intro s
      rw [firstAbove]
      split_ifs
      · omega
      · have := ih (s + 1); omega
  have := this 15 0
  unfold lookupSym
  omega

/-- The scalar code without the table of reciprocals. -/
def plain_faithful : Faithful plainImpl where
  abs := fun c => c
  default := rfl
  blend := fun _ _ _ _ => rfl
  average := fun _ _ _ _ _ _ _ => rfl
  symRange := fun o hu sym hs => by
    have h1 := symRange_eq (divByMax o) o hu (exactDiv_plain o (max_pos o hu)) sym hs
    have h2 := symRange_eq (Opt.new o).divByMax o hu (exactDiv_opt o (max_pos o hu) hu.1) sym hs
    exact h1.trans h2.symm
  lookup := fun o hu off h => by
    have h1 := symRange_eq (divByMax o) o hu (exactDiv_plain o (max_pos o hu)) _ (lookupSym_lt o off)
    have h2 := symRange_eq (Opt.new o).divByMax o hu (exactDiv_opt o (max_pos o hu) hu.1) _ (lookupSym_lt o off)
    exact Prod.ext rfl (h1.trans h2.symm)

/-- Two states with the same counts, weights and history. -/
def Same {I : Impl} (F : Faithful I) {κ ι : Type} (s : Ses I κ ι) (t : Session κ ι) : Prop :=
  (∀ k, t.models k = Opt.new (F.abs (s.models k))) ∧ s.weights = t.weights ∧ s.hist = t.hist

theorem same_init {I : Impl} (F : Faithful I) (κ ι : Type) : Same F (Ses.init I κ ι) Session.init :=
  ⟨fun _ => by rw [Session.init, Ses.init, F.default]; rfl, rfl, rfl⟩

theorem healthy_of {I : Impl} (F : Faithful I) {κ ι : Type} {s : Ses I κ ι} {t : Session κ ι} (h : Same F s t)
    (hok : t.Ok) (k : κ) : Healthy (F.abs (s.models k)) := by
  obtain ⟨c, hc, e⟩ := hok.1 k
  have := h.1 k
  rw [e] at this
  have e2 : c = F.abs (s.models k) := congrArg Opt.cdf this
  rw [← e2]; exact hc

theorem same_coding {I : Impl} (F : Faithful I) {κ ι : Type} {s : Ses I κ ι} {t : Session κ ι} (h : Same F s t)
    (hok : t.Ok) (ch : Choice κ ι) : t.coding ch = Opt.new (F.abs (s.coding ch)) ∧ Usable (F.abs (s.coding ch)) := by
  have e : t.coding ch = Opt.new (F.abs (s.coding ch)) := by
    cases ch with
    | fixed => show Opt.default = _; rw [Ses.coding, F.default]; rfl
    | plain k sp => exact h.1 k
    | mixed cm nib w a b =>
      show Opt.average _ _ _ = _
      rw [h.1 cm, h.1 nib, Ses.coding, h.2.1,
        F.average _ _ _ (healthy_of F h hok cm) (healthy_of F h hok nib) (hok.2 w).2.2.1 (hok.2 w).2.2.2]
      rfl
  refine ⟨e, ?_⟩
  obtain ⟨c, hu, e2⟩ := coding_usable t hok ch
  rw [e] at e2
  have e3 : F.abs (s.coding ch) = c := congrArg Opt.cdf e2
  rw [e3]; exact hu

theorem same_blendIf {I : Impl} (F : Faithful I) (o : I.σ) (sym : Nat) (hs : sym < 16) (sp : Option Speed) :
    blendIf (Opt.new (F.abs o)) sym sp = Opt.new (F.abs (adaptIf I o sym sp)) := by
  cases sp with
  | none => rfl
  | some x => rw [adaptIf, F.blend o sym x hs]; rfl

theorem same_update {I : Impl} (F : Faithful I) {κ : Type} [DecidableEq κ] (m : κ → I.σ) (m' : κ → Opt)
    (h : ∀ k, m' k = Opt.new (F.abs (m k))) (k0 : κ) (o : I.σ) (o' : Opt) (ho : o' = Opt.new (F.abs o)) :
    ∀ k, Function.update m' k0 o' k = Opt.new (F.abs (Function.update m k0 o k)) := by
  intro k
  by_cases hk : k = k0
  · subst hk; simpa using ho
  · simpa [Function.update_of_ne hk] using h k

theorem same_after {I : Impl} (F : Faithful I) {κ ι : Type} [DecidableEq κ] [DecidableEq ι] {s : Ses I κ ι}
    {t : Session κ ι} (h : Same F s t) (hok : t.Ok) (ch : Choice κ ι) (sym : Nat) (hs : sym < 16) :
    Same F (s.after ch sym) (t.after ch sym) := by
  cases ch with
  | fixed => exact ⟨h.1, h.2.1, by simp [Ses.after, Session.after, h.2.2]⟩
  | plain k sp =>
    refine ⟨?_, h.2.1, by simp [Ses.after, Session.after, h.2.2]⟩
    apply same_update F _ _ h.1
    rw [h.1 k]
    exact same_blendIf F _ sym hs sp
  | mixed cm nib w a b =>
    have hm1 : ∀ k, Function.update t.models cm (blendIf (t.models cm) sym a) k =
        Opt.new (F.abs (Function.update s.models cm (adaptIf I (s.models cm) sym a) k)) := by
      apply same_update F _ _ h.1
      rw [h.1 cm]
      exact same_blendIf F _ sym hs a
    obtain ⟨e1, u1⟩ := same_coding F h hok (.mixed cm nib w a b)
    have u2 : Usable (F.abs (s.models cm)) := (same_coding F h hok (.plain cm none)).2
    have u3 : Usable (F.abs (s.models nib)) := (same_coding F h hok (.plain nib none)).2
    refine ⟨?_, ?_, by simp [Ses.after, Session.after, h.2.2]⟩
    · apply same_update F _ _ hm1
      rw [hm1 nib]
      exact same_blendIf F _ sym hs b
    · simp only [Ses.after, Session.after]
      rw [F.symRange _ u1 sym hs, ← e1, F.symRange _ u2 sym hs, F.symRange _ u3 sym hs]
      rw [← h.1 cm, ← h.1 nib, h.2.1]

theorem send_same {I : Impl} (F : Faithful I) {κ ι : Type} [DecidableEq κ] [DecidableEq ι]
    (rule : List Nat → Choice κ ι) (hrule : ∀ h, (rule h).Safe) (nibs : List Nat) (hn : ∀ n ∈ nibs, n < 16)
    (s : Ses I κ ι) (t : Session κ ι) (h : Same F s t) (hok : t.Ok) :
    sendNibbles rule s nibs = (encodeNibbles rule t nibs).1 := by
  induction nibs generalizing s t with
  | nil => rfl
  | cons n l ih =>
    rw [sendNibbles, encodeNibbles, h.2.2]
    obtain ⟨e1, u1⟩ := same_coding F h hok (rule t.hist)
    have hn1 : n < 16 := hn n (by simp)
    have := ih (fun x hx => hn x (by simp [hx])) _ _ (same_after F h hok (rule t.hist) n hn1)
      (after_ok t hok (rule t.hist) (hrule _) n hn1)
    rw [this, F.symRange _ u1 n hn1, ← e1]

theorem receive_same {I : Impl} (F : Faithful I) {κ ι : Type} [DecidableEq κ] [DecidableEq ι]
    (rule : List Nat → Choice κ ι) (hrule : ∀ h, (rule h).Safe) (n : Nat)
    (s : Ses I κ ι) (t : Session κ ι) (h : Same F s t) (hok : t.Ok) (d : Ans.Dec) (cur : List UInt8)
    (more : List (List UInt8)) :
    receiveNibbles rule n s d cur more =
      (decodeNibbles rule n t d cur more).map (fun x => (x.1.hist, x.2.1, x.2.2.1, x.2.2.2)) := by
  induction n generalizing s t d cur more with
  | zero => simp [receiveNibbles, decodeNibbles, h.2.2]
  | succ n ih =>
    rw [receiveNibbles, decodeNibbles]
    cases hf : d.fill cur more with
    | none => rfl
    | some v =>
      obtain ⟨d', c', m'⟩ := v
      dsimp only
      rw [h.2.2]
      obtain ⟨e1, u1⟩ := same_coding F h hok (rule t.hist)
      have hoff : d'.offset < 2 ^ 15 := by
        rw [Ans.Dec.offset, Ans.log2Scale, Nat.and_two_pow_sub_one_eq_mod]
        exact Nat.mod_lt _ (by decide)
      rw [F.lookup _ u1 _ hoff, ← e1]
      have hsym : ((t.coding (rule t.hist)).lookup d'.offset).1 < 16 := lookupSym_lt _ _
      exact ih _ _ (same_after F h hok (rule t.hist) _ hsym) (after_ok t hok (rule t.hist) (hrule _) _ hsym) _ _ _

/-- The builds: with which features the crate was compiled. -/
inductive Build where
  /-- the default -/
  | table
  /-- `uncached_frequentist` -/
  | plain
  /-- `simd`, with or without `avoid-divide` -/
  | simd (v : Variant) (avoidDivide : Bool)

/-- The implementation a build uses. -/
def Build.impl : Build → Impl
  | .table => optImpl
  | .plain => plainImpl
  | .simd v ad => simdImpl v ad

/-- The default build is the one the rest of the model is written for. -/
def Ses.session {κ ι : Type} (s : Ses optImpl κ ι) : Session κ ι := ⟨s.models, s.weights, s.hist⟩

theorem session_coding {κ ι : Type} (s : Ses optImpl κ ι) (ch : Choice κ ι) :
    s.session.coding ch = s.coding ch := by cases ch <;> rfl

theorem session_after {κ ι : Type} [DecidableEq κ] [DecidableEq ι] (s : Ses optImpl κ ι) (ch : Choice κ ι) (n : Nat) :
    (s.after ch n).session = s.session.after ch n := by
  cases ch with
  | fixed => rfl
  | plain k sp => cases sp <;> rfl
  | mixed cm nib w a b => cases a <;> cases b <;> rfl

theorem table_send {κ ι : Type} [DecidableEq κ] [DecidableEq ι] (rule : List Nat → Choice κ ι) (nibs : List Nat)
    (s : Ses optImpl κ ι) : sendNibbles rule s nibs = (encodeNibbles rule s.session nibs).1 := by
  induction nibs generalizing s with
  | nil => rfl
  | cons n l ih =>
    rw [sendNibbles, encodeNibbles, ih, session_after, session_coding]
    rfl

theorem table_receive {κ ι : Type} [DecidableEq κ] [DecidableEq ι] (rule : List Nat → Choice κ ι) (n : Nat)
    (s : Ses optImpl κ ι) (d : Ans.Dec) (cur : List UInt8) (more : List (List UInt8)) :
    receiveNibbles rule n s d cur more =
      (decodeNibbles rule n s.session d cur more).map (fun x => (x.1.hist, x.2.1, x.2.2.1, x.2.2.2)) := by
  induction n generalizing s d cur more with
  | zero => rfl
  | succ n ih =>
    rw [receiveNibbles, decodeNibbles]
    cases hf : d.fill cur more with
    | none => rfl
    | some v =>
      obtain ⟨d', c', m'⟩ := v
      dsimp only
      rw [ih, session_after, session_coding]
      rfl

theorem build_send (b : Build) {κ ι : Type} [DecidableEq κ] [DecidableEq ι] (rule : List Nat → Choice κ ι)
    (hrule : ∀ h, (rule h).Safe) (nibs : List Nat) (hn : ∀ n ∈ nibs, n < 16) :
    sendNibbles rule (Ses.init b.impl κ ι) nibs = (encodeNibbles rule Session.init nibs).1 := by
  cases b with
  | plain => exact send_same plain_faithful rule hrule nibs hn _ _ (same_init _ κ ι) ok_init
  | simd v ad => exact send_same (simd_faithful v ad) rule hrule nibs hn _ _ (same_init _ κ ι) ok_init
  | table => exact table_send rule nibs _

theorem build_receive (b : Build) {κ ι : Type} [DecidableEq κ] [DecidableEq ι] (rule : List Nat → Choice κ ι)
    (hrule : ∀ h, (rule h).Safe) (n : Nat) (d : Ans.Dec) (cur : List UInt8) (more : List (List UInt8)) :
    receiveNibbles rule n (Ses.init b.impl κ ι) d cur more =
      (decodeNibbles rule n Session.init d cur more).map (fun x => (x.1.hist, x.2.1, x.2.2.1, x.2.2.2)) := by
  cases b with
  | plain => exact receive_same plain_faithful rule hrule n _ _ (same_init _ κ ι) ok_init _ _ _
  | simd v ad => exact receive_same (simd_faithful v ad) rule hrule n _ _ (same_init _ κ ι) ok_init _ _ _
  | table => exact table_receive rule n _ _ _ _

/-- C60: two builds hand the same slots to the entropy coder, for all nibbles and whatever the rule by
which models, mixtures and (safe) speeds are chosen: they write the same bytes. -/
theorem builds_send_same (a b : Build) {κ ι : Type} [DecidableEq κ] [DecidableEq ι] (rule : List Nat → Choice κ ι)
    (hrule : ∀ h, (rule h).Safe) (nibs : List Nat) (hn : ∀ n ∈ nibs, n < 16) :
    sendNibbles rule (Ses.init a.impl κ ι) nibs = sendNibbles rule (Ses.init b.impl κ ι) nibs := by
  rw [build_send a rule hrule nibs hn, build_send b rule hrule nibs hn]

/-- C60: two builds read the same nibbles out of every input, valid or not, and leave the same bytes. -/
theorem builds_receive_same (a b : Build) {κ ι : Type} [DecidableEq κ] [DecidableEq ι] (rule : List Nat → Choice κ ι)
    (hrule : ∀ h, (rule h).Safe) (n : Nat) (d : Ans.Dec) (cur : List UInt8) (more : List (List UInt8)) :
    receiveNibbles rule n (Ses.init a.impl κ ι) d cur more = receiveNibbles rule n (Ses.init b.impl κ ι) d cur more := by
  rw [build_receive a rule hrule, build_receive b rule hrule]

/-- C60: what one build has sent, any other reads back, in whatever pieces the bytes arrive. -/
theorem builds_interoperate (a b : Build) {κ ι : Type} [DecidableEq κ] [DecidableEq ι] (rule : List Nat → Choice κ ι)
    (hrule : ∀ h, (rule h).Safe) (nibs : List Nat) (hn : ∀ n ∈ nibs, n < 16)
    (ops : List Ans.EncOp) (hputs : Ans.putsOf ops = sendNibbles rule (Ses.init a.impl κ ι) nibs)
    (hclosed : Ans.ClosedOnce ops) (out : List UInt8) (e : Ans.Enc)
    (hrun : Ans.Enc.init.run ops = some (out, e)) (hdrained : e.q = [])
    (pieces : List (List UInt8)) (tail : List UInt8) (hpieces : pieces.flatten = out ++ tail) :
    ∃ d cur more, receiveNibbles rule nibs.length (Ses.init b.impl κ ι) Ans.Dec.init [] pieces =
      some (nibs, d, cur, more) ∧ cur ++ more.flatten = tail := by
  rw [build_send a rule hrule nibs hn] at hputs
  obtain ⟨s, d, cur, more, h1, -, h3, h4⟩ := adaptive_round_trip rule hrule Session.init ok_init nibs hn ops hputs
    hclosed out e hrun hdrained pieces tail hpieces
  refine ⟨d, cur, more, ?_, h4⟩
  rw [build_receive b rule hrule, h1]
  have : s.hist = nibs := by rw [h3]; rfl
  simp [this]

/-- Such runs of the encoder exist for all nibbles. -/
theorem builds_send_total (a : Build) {κ ι : Type} [DecidableEq κ] [DecidableEq ι] (rule : List Nat → Choice κ ι)
    (hrule : ∀ h, (rule h).Safe) (nibs : List Nat) (hn : ∀ n ∈ nibs, n < 16) :
    ∃ ops out e, Ans.putsOf ops = sendNibbles rule (Ses.init a.impl κ ι) nibs ∧ Ans.ClosedOnce ops ∧
      Ans.Enc.init.run ops = some (out, e) ∧ e.q = [] := by
  rw [build_send a rule hrule nibs hn]
  exact adaptive_encode_total rule hrule Session.init ok_init nibs hn

/-- C60, the limit of the claim: with a speed the option parser accepts and the counters do not bear
(see `Cdf.accepted_speed_overflows`), the default build and the others write different bytes. -/
theorem builds_differ_unsafe : ∃ (rule : List Nat → Choice (Fin 1) Unit) (nibs : List Nat),
    (∀ h, ∃ k sp, rule h = .plain k (some sp) ∧ 0 ≤ sp.inc ∧ sp.inc < 16384 ∧ sp.lim ≤ 16384) ∧ (∀ n ∈ nibs, n < 16) ∧
      ∀ v ad, sendNibbles rule (Ses.init (Build.table).impl _ _) nibs ≠
        sendNibbles rule (Ses.init (Build.simd v ad).impl _ _) nibs := by
  refine ⟨fun _ => .plain 0 (some ⟨16383, 16384⟩), [0, 0, 15, 3], fun _ => ⟨0, ⟨16383, 16384⟩, rfl, by decide⟩, by decide,
    fun v ad => ?_⟩
  have h1 : sendNibbles (fun _ => Choice.plain (0 : Fin 1) (some ⟨16383, 16384⟩)) (Ses.init optImpl (Fin 1) Unit)
      [0, 0, 15, 3] = [⟨1, 2047⟩, ⟨1, 32615⟩, ⟨32762, 6⟩, ⟨18580, 2⟩] := by decide +kernel
  have h2 : sendNibbles (fun _ => Choice.plain (0 : Fin 1) (some ⟨16383, 16384⟩)) (Ses.init (simdImpl v ad) (Fin 1) Unit)
      [0, 0, 15, 3] = [⟨1, 2047⟩, ⟨1, 32615⟩, ⟨32762, 6⟩, ⟨39988, 65530⟩] := by
    cases v <;> cases ad <;> decide +kernel
  intro e
  have e' := h1.symm.trans (e.trans h2)
  exact absurd e' (by decide)

/-- A concrete rule with a mixture, two models and different speeds. -/
example : sendNibbles demoRule (Ses.init (Build.simd .portable true).impl _ _) [3, 15, 0, 3] =
    [⟨6145, 2047⟩, ⟨31403, 1365⟩, ⟨1, 2047⟩, ⟨1560, 17621⟩] := by decide +kernel

example : ∀ h, (demoRule h).Safe := by
  intro h
  unfold demoRule
  split <;> simp [Choice.Safe, SafeSpeed]

/-- The three lookups on a concrete distribution. -/
example : [Variant.portable, .avx2, .sse].map (fun v => (SCdf.default.blend 5 ⟨1664, 16384⟩).lookup v false 20000) =
    [(5, ⟨380, 31629⟩), (5, ⟨380, 31629⟩), (5, ⟨380, 31629⟩)] := by decide +kernel

end Divans.Simd
