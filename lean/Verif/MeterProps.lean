import Verif.AdaptiveProps
import Verif.Meter

/-!
# Measuring changes nothing (C91)

A build with measurements should code every nibble exactly as one without, and what it measures should be what
happened.
-/

namespace Divans.Meter
open Divans.Cdf Divans.Weights Divans.Adaptive

/-! ## Distributions -/

/-- A kind of distribution behaves as the production type does: there is a view of each as one of the production
type that every operation keeps. -/
structure Shows {M : Type} (d : Dist M) (view : M → Opt) : Prop where
  fresh : view d.fresh = Opt.default
  blend : ∀ m sym sp, view (d.blend m sym sp) = (view m).blend sym sp
  average : ∀ a b w, view (d.average a b w) = (view a).average (view b) w
  symRange : ∀ m sym, d.symRange m sym = (view m).symRange sym
  lookup : ∀ m off, d.lookup m off = (view m).lookup off

/-- The production session seen in one with other distributions. -/
def Sess.view {κ ι M : Type} (v : M → Opt) (s : Sess κ ι M) : Session κ ι :=
  ⟨fun k => v (s.models k), s.weights, s.hist⟩

section
variable {κ ι M : Type} [DecidableEq κ] [DecidableEq ι] {d : Dist M} {v : M → Opt}

theorem view_coding (h : Shows d v) (s : Sess κ ι M) (ch : Choice κ ι) :
    v (s.coding d ch) = (s.view v).coding ch := by
  cases ch
  · exact h.fresh
  · rfl
  · exact h.average _ _ _

theorem view_blendOpt (h : Shows d v) (m : M) (sym : Nat) (sp : Option Speed) :
    v (blendOpt d m sym sp) = blendIf (v m) sym sp := by
  cases sp
  · rfl
  · exact h.blend _ _ _

theorem view_update (f : κ → M) (k : κ) (m : M) :
    (fun x => v (Function.update f k m x)) = Function.update (fun x => v (f x)) k (v m) := by
  funext x
  by_cases hx : x = k
  · subst hx; simp
  · simp [Function.update_of_ne hx]

theorem view_after (h : Shows d v) (s : Sess κ ι M) (ch : Choice κ ι) (sym : Nat) :
    (s.after d ch sym).view v = (s.view v).after ch sym := by
  cases ch with
  | fixed => rfl
  | plain k sp =>
    simp only [Sess.after, Sess.view, Session.after, view_update, view_blendOpt h]
  | mixed cm nib w a b =>
    have hc := view_coding h s (.mixed cm nib w a b)
    simp only [Sess.after, Sess.view, Session.after, view_update, view_blendOpt h, h.symRange, hc]
    congr 3
    by_cases hx : nib = cm
    · subst hx; simp [view_blendOpt h]
    · simp [Function.update_of_ne hx]

/-- C91: **a sender that measures hands the same to the entropy coder.** -/
theorem same_slots (h : Shows d v) (rule : List Nat → Choice κ ι) (s : Sess κ ι M) (syms : List Nat) :
    (encode d rule s syms).1 = (encodeNibbles rule (s.view v) syms).1 ∧
    (encode d rule s syms).2.view v = (encodeNibbles rule (s.view v) syms).2 := by
  induction syms generalizing s with
  | nil => exact ⟨rfl, rfl⟩
  | cons n t ih =>
    have e := ih (s.after d (rule s.hist) n)
    rw [view_after h] at e
    have hh : (s.view v).hist = s.hist := rfl
    simp only [encode, encodeNibbles, h.symRange, view_coding h, hh]
    exact ⟨by rw [e.1], e.2⟩

/-- C91: **a receiver that measures gets the same nibbles from any bytes**, uses the same number of bytes, and
waits for more when the other would. -/
theorem same_nibbles (h : Shows d v) (rule : List Nat → Choice κ ι) (n : Nat) (s : Sess κ ι M) (c : Ans.Dec)
    (cur : List UInt8) (more : List (List UInt8)) :
    (decode d rule n s c cur more).map (fun r => (r.1.view v, r.2)) =
      decodeNibbles rule n (s.view v) c cur more := by
  induction n generalizing s c cur more with
  | zero => rfl
  | succ n ih =>
    have hh : (s.view v).hist = s.hist := rfl
    simp only [decode, decodeNibbles, h.lookup, view_coding h, hh]
    cases c.fill cur more with
    | none => rfl
    | some r =>
      obtain ⟨c', cur', more'⟩ := r
      simp only
      rw [ih, view_after h]

/-- C91: **files go from a build that measures to one that does not and back**: what a sender with distributions
of any kind that behaves well has made, a receiver with such distributions of any other kind decodes. -/
theorem interchange {M' : Type} {d' : Dist M'} {v' : M' → Opt} (h : Shows d v) (h' : Shows d' v')
    (rule : List Nat → Choice κ ι) (hrule : ∀ h, (rule h).Safe) (syms : List Nat) (hsyms : ∀ n ∈ syms, n < 16)
    (ops : List Ans.EncOp) (hputs : Ans.putsOf ops = (encode d rule (Sess.init d) syms).1)
    (hclosed : Ans.ClosedOnce ops) (out : List UInt8) (e : Ans.Enc)
    (hrun : Ans.Enc.init.run ops = some (out, e)) (hdrained : e.q = [])
    (pieces : List (List UInt8)) (tail : List UInt8) (hpieces : pieces.flatten = out ++ tail) :
    ∃ s c cur more, decode d' rule syms.length (Sess.init d') Ans.Dec.init [] pieces = some (s, c, cur, more) ∧
      s.hist = syms ∧ s.view v' = (encode d rule (Sess.init d) syms).2.view v ∧
      cur ++ more.flatten = tail := by
  have i1 : (Sess.init d : Sess κ ι M).view v = Session.init := by
    simp [Sess.view, Sess.init, Session.init, h.fresh]
  have i2 : (Sess.init d' : Sess κ ι M').view v' = Session.init := by
    simp [Sess.view, Sess.init, Session.init, h'.fresh]
  obtain ⟨q1, q2⟩ := same_slots h rule (Sess.init d) syms
  rw [i1] at q1 q2
  obtain ⟨s, c, cur, more, r1, r2, r3, r4⟩ := adaptive_round_trip rule hrule Session.init ok_init syms hsyms ops
    (hputs.trans q1) hclosed out e hrun hdrained pieces tail hpieces
  have w := same_nibbles h' rule syms.length (Sess.init d') Ans.Dec.init [] pieces
  rw [i2, r1] at w
  obtain ⟨⟨s', c', cur', more'⟩, w1, w2⟩ := Option.map_eq_some_iff.mp w
  simp only [Prod.mk.injEq] at w2
  obtain ⟨w2, rfl, rfl, rfl⟩ := w2
  refine ⟨s', c', cur', more', w1, ?_, ?_, r4⟩
  · have : (s'.view v').hist = s'.hist := rfl
    rw [← this, w2, r3]; rfl
  · rw [w2, r2, q2]

end

/-- The production type behaves as itself. -/
theorem opt_shows : Shows optDist id := ⟨rfl, fun _ _ _ => rfl, fun _ _ _ => rfl, fun _ _ => rfl, fun _ _ => rfl⟩

/-- C91: **the distributions of `findspeed` code as the production type does**, whatever the costs. -/
theorem findspeed_shows {F : Type} (f : Cost F) : Shows (variantDist f) (fun v => v.cdf 0) where
  fresh := rfl
  blend _ _ _ := rfl
  average a b w := by simp [variantDist, Variant.average]
  symRange _ _ := rfl
  lookup _ _ := rfl

/-- C91: **so do those of `debug_entropy`.** -/
theorem entropy_shows {F : Type} (f : Cost F) (en : (Fin 16 → Nat) → F) :
    Shows (debugDist f en) Debug.cdf where
  fresh := rfl
  blend _ _ _ := rfl
  average _ _ _ := rfl
  symRange _ _ := rfl
  lookup _ _ := rfl

/-! ## What `findspeed` measures -/

theorem pdfOf_eq (c : Cdf) (s : Nat) : pdfOf c s = pdf c s := by
  unfold pdfOf pdf
  by_cases h : s = 0 <;> simp [h]

/-- What coding symbols costs with a distribution that adapts at the given speeds (specification): for each the
logarithm of the total less that of the count of the symbol. -/
def costOf {F : Type} (f : Cost F) : Opt → F → List (Nat × Speed) → F
  | _, acc, [] => acc
  | o, acc, (sym, sp) :: t => costOf f (o.blend sym sp) (f.add acc (f.sub (f.log (max o.cdf)) (f.log (pdf o.cdf sym)))) t

theorem foldl_variant {F : Type} (f : Cost F) (i : Fin 16) (hist : List (Nat × Speed)) (v : Variant F) :
    (hist.foldl (fun v x => Variant.blend f v x.1 x.2) v).cost i =
      costOf f (v.cdf i) (v.cost i) (hist.map fun x => (x.1, speedAt x.2 i)) ∧
    (hist.foldl (fun v x => Variant.blend f v x.1 x.2) v).cdf i =
      hist.foldl (fun o x => o.blend x.1 (speedAt x.2 i)) (v.cdf i) := by
  induction hist generalizing v with
  | nil => exact ⟨rfl, rfl⟩
  | cons x t ih =>
    have := ih (Variant.blend f v x.1 x.2)
    simp only [List.foldl_cons, List.map_cons, costOf, ← pdfOf_eq]
    exact this

/-- C91: **the cost reported for a speed of the palette is what the symbols would have cost at that speed**, and
the base cost what they cost at the speeds that were used; for every history. -/
theorem findspeed_measures {F : Type} (f : Cost F) (hist : List (Nat × Speed)) :
    (∀ i, (hist.foldl (fun v x => Variant.blend f v x.1 x.2) (Variant.fresh f)).variantCost i =
      costOf f Opt.default f.zero (hist.map fun x => (x.1, palette i))) ∧
    (hist.foldl (fun v x => Variant.blend f v x.1 x.2) (Variant.fresh f)).cost 0 =
      costOf f Opt.default f.zero hist := by
  constructor
  · intro i
    exact (foldl_variant f i.succ hist (Variant.fresh f)).1
  · have := (foldl_variant f 0 hist (Variant.fresh f)).1
    rw [this]
    congr 1
    simp [speedAt]

/-- The speeds of the palette are safe. -/
theorem palette_safe (i : Fin 15) : SafeSpeed (palette i) := by
  revert i
  unfold SafeSpeed
  decide

/-- C91: **the extra copies never overflow**: after every history of safe speeds all the copies are healthy. -/
theorem findspeed_healthy {F : Type} (f : Cost F) (hist : List (Nat × Speed)) (hs : ∀ x ∈ hist, SafeSpeed x.2)
    (i : Fin 16) :
    ∃ c, Healthy c ∧ (hist.foldl (fun v x => Variant.blend f v x.1 x.2) (Variant.fresh f)).cdf i = Opt.new c := by
  rw [(foldl_variant f i hist (Variant.fresh f)).2]
  have key : ∀ (l : List (Nat × Speed)) (o : Opt), (∀ x ∈ l, SafeSpeed x.2) →
      (∃ c, Healthy c ∧ o = Opt.new c) →
      ∃ c, Healthy c ∧ l.foldl (fun o x => o.blend x.1 (speedAt x.2 i)) o = Opt.new c := by
    intro l
    induction l with
    | nil => intro o _ ho; exact ho
    | cons x t ih =>
      intro o hl ho
      refine ih _ (fun y hy => hl y (by simp [hy])) ?_
      obtain ⟨c, hc, rfl⟩ := ho
      refine ⟨_, healthy_blend c hc x.1 (speedAt x.2 i) ?_, rfl⟩
      refine Fin.cases ?_ (fun j => ?_) i
      · exact hl x (by simp)
      · exact palette_safe j
  exact key hist _ hs ⟨_, healthy_default, rfl⟩

/-! ## What `debug_entropy` measures -/

theorem foldl_debug {F : Type} (f : Cost F) (en : (Fin 16 → Nat) → F) (hist : List (Nat × Speed)) (v : Debug F)
    (i : Fin 16) (hv : v.counts i < 2 ^ 32) :
    (hist.foldl (fun v x => Debug.blend f en v x.1 x.2) v).counts i =
      (v.counts i + (hist.map Prod.fst).count i.val) % 2 ^ 32 := by
  induction hist generalizing v with
  | nil => simpa using (Nat.mod_eq_of_lt hv).symm
  | cons x t ih =>
    rw [List.foldl_cons, ih]
    · by_cases hx : i.val = x.1
      · simp only [Debug.blend, hx, if_true, List.map_cons, List.count_cons_self]
        omega
      · have hx' : x.1 ≠ i.val := fun h => hx h.symm
        simp only [Debug.blend, hx, if_false, List.map_cons, List.count_cons_of_ne hx']
    · simp only [Debug.blend]
      split
      · exact Nat.mod_lt _ (by decide)
      · exact hv

theorem sum_add {α : Type} (l : List α) (f g : α → Nat) :
    (l.map fun i => f i + g i).sum = (l.map f).sum + (l.map g).sum := by
  induction l with
  | nil => rfl
  | cons a t ih => simp only [List.map_cons, List.sum_cons, ih]; omega

theorem sum_count (l : List Nat) (h : ∀ x ∈ l, x < 16) :
    ((List.finRange 16).map fun i => l.count i.val).sum = l.length := by
  induction l with
  | nil => rfl
  | cons a t ih =>
    have ha : a < 16 := h a (by simp)
    have := ih fun x hx => h x (by simp [hx])
    have e : ((List.finRange 16).map fun i => (a :: t).count i.val) =
        (List.finRange 16).map fun i => t.count i.val + if i = (⟨a, ha⟩ : Fin 16) then 1 else 0 := by
      refine List.map_congr_left fun i _ => ?_
      rw [List.count_cons]
      by_cases hi : i = ⟨a, ha⟩
      · subst hi; simp
      · have : ¬ a = i.val := fun hh => hi (Fin.ext hh.symm)
        simp [hi, this]
    have one : ∀ j : Fin 16, ((List.finRange 16).map fun i => if i = j then 1 else 0).sum = 1 := by decide
    rw [e, sum_add, this, one, List.length_cons]

/-- C91: **the counts reported are the numbers of the symbols coded**, and the number of samples is how many
there were; for every history shorter than 2^32. -/
theorem entropy_measures {F : Type} (f : Cost F) (en : (Fin 16 → Nat) → F) (hist : List (Nat × Speed))
    (hs : ∀ x ∈ hist, x.1 < 16) (hl : hist.length < 2 ^ 32) :
    (∀ i : Fin 16, (hist.foldl (fun v x => Debug.blend f en v x.1 x.2) (Debug.fresh f)).counts i =
      (hist.map Prod.fst).count i.val) ∧
    (hist.foldl (fun v x => Debug.blend f en v x.1 x.2) (Debug.fresh f)).samples = hist.length := by
  have h1 : ∀ i : Fin 16, (hist.foldl (fun v x => Debug.blend f en v x.1 x.2) (Debug.fresh f)).counts i =
      (hist.map Prod.fst).count i.val := by
    intro i
    rw [foldl_debug f en hist _ i (by simp [Debug.fresh])]
    have : (hist.map Prod.fst).count i.val ≤ hist.length := by
      simpa using List.count_le_length (a := i.val) (l := hist.map Prod.fst)
    simp only [Debug.fresh, Nat.zero_add]
    exact Nat.mod_eq_of_lt (by omega)
  refine ⟨h1, ?_⟩
  have h2 : (hist.foldl (fun v x => Debug.blend f en v x.1 x.2) (Debug.fresh f)).counts =
      fun i => (hist.map Prod.fst).count i.val := funext h1
  rw [Debug.samples, h2, sum_count _ (by simpa using fun a b hab => hs (a, b) hab)]
  simpa using hl

/-! ## `billing` -/

section
variable {C D A B F : Type} [DecidableEq B]

/-- C91: **a coder with an account answers every request as one without**, and ends in the same state; whatever the
requests, their purposes, and how often the coder is moved. -/
theorem billing_same (c : Coder C D A) (f : Cost F) (rates : Rates D F) (unknown : B) (es : List (Event B D))
    (x : Billed C B F) :
    (billedLife c f rates unknown x es).1 = (plainLife c x.coder es).1 ∧
    (billedLife c f rates unknown x es).2.2 = (plainLife c x.coder es).2 := by
  induction es generalizing x with
  | nil => exact ⟨rfl, rfl⟩
  | cons e es ih =>
    cases e with
    | mov => exact ih (x.mov c).1
    | ask why r =>
      have := ih (x.ask c f rates unknown why r).1
      have e1 : (x.ask c f rates unknown why r).1.coder = (c.ask x.coder r).1 := by cases r <;> rfl
      have e2 : (x.ask c f rates unknown why r).2 = (c.ask x.coder r).2 := by cases r <;> rfl
      rw [e1] at this
      simp only [billedLife, plainLife, e2]
      exact ⟨by rw [this.1], this.2⟩

/-- How many virtual bits a request stands for (specification): one for a bit, four for a nibble. -/
def weight : Req D → Nat
  | .bit _ _ => 1
  | .nibble _ _ => 4
  | _ => 0

/-- The virtual bits of a purpose in the life of a coder (specification); requests without a purpose count for
`unknown`. -/
def spent (unknown b : B) : List (Event B D) → Nat
  | [] => 0
  | .ask why r :: es => (if why.getD unknown = b then weight r else 0) + spent unknown b es
  | .mov :: es => spent unknown b es

/-- The virtual bits of all purposes (specification). -/
def spentAll : List (Event B D) → Nat
  | [] => 0
  | .ask _ r :: es => weight r + spentAll es
  | .mov :: es => spentAll es

theorem vbits_bill (f : Cost F) (b b' : B) (bits : F) (n : Nat) (a : Account B F) :
    vbits b' (bill f b bits n a) = vbits b' a + if b = b' then n else 0 := by
  induction a with
  | nil => by_cases h : b = b' <;> simp [bill, vbits, h]
  | cons e rest ih =>
    obtain ⟨k, x, m⟩ := e
    by_cases hk : k = b
    · subst hk
      by_cases h : k = b' <;> simp [bill, vbits, h]; omega
    · simp only [bill, if_neg hk, vbits, ih]; omega

theorem total_bill (f : Cost F) (b : B) (bits : F) (n : Nat) (a : Account B F) :
    totalVbits (bill f b bits n a) = totalVbits a + n := by
  induction a with
  | nil => simp [bill, totalVbits]
  | cons e rest ih =>
    obtain ⟨k, x, m⟩ := e
    by_cases hk : k = b
    · subst hk; simp [bill, totalVbits]; omega
    · simp only [bill, if_neg hk, totalVbits, ih]; omega

theorem bill_nodup (f : Cost F) (b : B) (bits : F) (n : Nat) (a : Account B F) (h : (a.map Prod.fst).Nodup) :
    ((bill f b bits n a).map Prod.fst).Nodup ∧
      ∀ k, k ∈ (bill f b bits n a).map Prod.fst ↔ k = b ∨ k ∈ a.map Prod.fst := by
  induction a with
  | nil => simp [bill]
  | cons e rest ih =>
    obtain ⟨k, x, m⟩ := e
    simp only [List.map_cons, List.nodup_cons] at h
    obtain ⟨i1, i2⟩ := ih h.2
    by_cases hk : k = b
    · subst hk
      simp only [bill, if_true, List.map_cons, List.nodup_cons]
      exact ⟨h, by intro j; simp⟩
    · simp only [bill, if_neg hk, List.map_cons, List.nodup_cons, i2]
      refine ⟨⟨?_, i1⟩, ?_⟩
      · rintro (hh | hh)
        · exact hk hh
        · exact h.1 hh
      · intro j
        simp only [List.mem_cons, i2]
        tauto

theorem billed_report (c : Coder C D A) (f : Cost F) (rates : Rates D F) (unknown : B) (es : List (Event B D))
    (x : Billed C B F) (hx : x.movd = false) (hn : (x.counter.map Prod.fst).Nodup) :
    ∃ a, (billedLife c f rates unknown x es).2.1 = [a] ∧ (a.map Prod.fst).Nodup ∧
      (∀ b, vbits b a = vbits b x.counter + spent unknown b es) ∧
      totalVbits a = totalVbits x.counter + spentAll es := by
  induction es generalizing x with
  | nil => exact ⟨x.counter, by simp [billedLife, Billed.drop, hx], hn, fun b => by simp [spent], by simp [spentAll]⟩
  | cons e es ih =>
    cases e with
    | mov =>
      obtain ⟨a, h1, h2, h3, h4⟩ := ih (x.mov c).1 rfl hn
      exact ⟨a, by simp only [billedLife, h1]; rfl, h2, h3, h4⟩
    | ask why r =>
      have hm : (x.ask c f rates unknown why r).1.movd = false := by cases r <;> exact hx
      have hc : ((x.ask c f rates unknown why r).1.counter.map Prod.fst).Nodup ∧
          (∀ b, vbits b (x.ask c f rates unknown why r).1.counter =
            vbits b x.counter + if why.getD unknown = b then weight r else 0) ∧
          totalVbits (x.ask c f rates unknown why r).1.counter = totalVbits x.counter + weight r := by
        cases r with
        | bit y p => exact ⟨(bill_nodup _ _ _ _ _ hn).1, fun b => vbits_bill _ _ _ _ _ _, total_bill _ _ _ _ _⟩
        | nibble y p => exact ⟨(bill_nodup _ _ _ _ _ hn).1, fun b => vbits_bill _ _ _ _ _ _, total_bill _ _ _ _ _⟩
        | drain y p => exact ⟨hn, fun b => by simp [Billed.ask, weight], by simp [Billed.ask, weight]⟩
        | close => exact ⟨hn, fun b => by simp [Billed.ask, weight], by simp [Billed.ask, weight]⟩
      obtain ⟨a, h1, h2, h3, h4⟩ := ih _ hm hc.1
      refine ⟨a, by simp only [billedLife, h1], h2, fun b => ?_, ?_⟩
      · rw [h3, hc.2.1, spent]; omega
      · rw [h4, hc.2.2, spentAll]; omega

/-- C91: **every symbol is on the account once**: a coder that starts with an empty account, however often it is
moved, prints one account; each purpose is on it once, with one virtual bit for each bit and four for each nibble
coded for it, and in all there are as many as were coded. -/
theorem billing_measures (c : Coder C D A) (f : Cost F) (rates : Rates D F) (unknown : B) (es : List (Event B D))
    (x : C) :
    ∃ a, (billedLife c f rates unknown ⟨x, [], false⟩ es).2.1 = [a] ∧ (a.map Prod.fst).Nodup ∧
      (∀ b, vbits b a = spent unknown b es) ∧ totalVbits a = spentAll es := by
  obtain ⟨a, h1, h2, h3, h4⟩ := billed_report c f rates unknown es ⟨x, [], false⟩ rfl (by simp)
  exact ⟨a, h1, h2, fun b => by rw [h3]; simp [vbits], by rw [h4]; simp [totalVbits]⟩

/-- C91, what is not so: **what is coded with a coder after it was moved away is on no account**: it is kept, but not
printed. -/
theorem moved_not_billed (c : Coder C D A) (f : Cost F) (rates : Rates D F) (unknown : B) (x : Billed C B F)
    (es : List (Option B × Req D)) :
    (es.foldl (fun y e => (y.ask c f rates unknown e.1 e.2).1) (x.mov c).2).drop = none := by
  have : ∀ (l : List (Option B × Req D)) (y : Billed C B F), y.movd = true →
      (l.foldl (fun y e => (y.ask c f rates unknown e.1 e.2).1) y).movd = true := by
    intro l
    induction l with
    | nil => intro y hy; exact hy
    | cons e l ih =>
      intro y hy
      refine ih _ ?_
      obtain ⟨w, r⟩ := e
      cases r <;> exact hy
  have h := this es (x.mov c).2 rfl
  simp [Billed.drop, h]

end

/-! ## Examples -/

/-- There is a file made with `findspeed`, whatever the nibbles; `interchange` is not about nothing. -/
example {F : Type} (f : Cost F) (syms : List Nat) (hsyms : ∀ n ∈ syms, n < 16) :
    ∃ ops out e, Ans.putsOf ops = (encode (variantDist f) demoRule (Sess.init (variantDist f)) syms).1 ∧
      Ans.ClosedOnce ops ∧ Ans.Enc.init.run ops = some (out, e) ∧ e.q = [] := by
  rw [(same_slots (findspeed_shows f) demoRule (Sess.init (variantDist f)) syms).1]
  exact adaptive_encode_total demoRule (by
    intro h
    unfold demoRule
    split <;> simp [Choice.Safe, SafeSpeed]) Session.init ok_init syms hsyms

/-- Costs as whole numbers: the logarithm of a power of two. -/
def demoCost : Cost Int := ⟨0, (· + ·), (· - ·), fun x => Nat.log2 x.toNat⟩

example : (([(3, ⟨16, 8192⟩), (3, ⟨16, 8192⟩), (3, ⟨16, 8192⟩)] : List (Nat × Speed)).foldl
    (fun v x => Variant.blend demoCost v x.1 x.2) (Variant.fresh demoCost)).variantCost 14 = 4 := by
  decide +kernel

example : (([(3, ⟨16, 8192⟩), (5, ⟨16, 8192⟩), (3, ⟨16, 8192⟩)] : List (Nat × Speed)).foldl
    (fun v x => Debug.blend demoCost (fun _ => 0) v x.1 x.2) (Debug.fresh demoCost)).samples = 3 := by
  decide +kernel

/-- A coder that takes everything. -/
def demoCoder : Coder Nat Unit (Option (Bool × Nat)) where
  ask c r := match r with
    | .bit b _ => (c + 1, some (b, 0))
    | .nibble n _ => (c + 4, some (false, n))
    | _ => (c, none)
  bitOf a := (a.getD (false, 0)).1
  nibbleOf a := (a.getD (false, 0)).2
  mov c := (c, 0)

/-- Requests for two purposes and one without, with a move between them. -/
def demoEvents : List (Event Nat Unit) :=
  [.ask (some 1) (.nibble 7 ()), .ask none (.bit true 9), .mov, .ask (some 1) (.nibble 2 ()),
    .ask (some 2) (.bit false 9), .ask none (.drain [] 5)]

example : (billedLife demoCoder demoCost ⟨fun _ _ => 1, fun _ _ => 3⟩ 0 ⟨0, [], false⟩ demoEvents).2.1 =
    [[(1, 6, 8), (0, 1, 1), (2, 1, 1)]] := by decide
example : spent 0 1 demoEvents = 8 ∧ spentAll demoEvents = 10 := by decide

end Divans.Meter
