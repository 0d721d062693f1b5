import Verif.Sym.FunctionSpec
import Verif.Sym.FunctionIdentities
import Verif.Sym.ProductLemmas

/-! # The functions keep the value -/

namespace Wf.Sym
open Complex

variable {F : Type} [DecidableEq F] [FnSem F]

/-- The expression `r` is well-formed and, if the licence is true, has the value `v` where there is one. -/
def FnOk (lic : Lic F) (ρ : Env F) (r : Expr F) (v : Option ℂ) : Prop := Good r ∧ (lic.TrueAt ρ → ∀ z, v = some z → eval ρ r = some z)

/-- The value of a function of one argument. -/
noncomputable def fn1 (ρ : Env F) (f : BuiltIn) (x : Expr F) : Option ℂ := (eval ρ x).bind fun v => fnVal f [v]

theorem eval_fn1 (ρ : Env F) (f : BuiltIn) (x : Expr F) : eval ρ (.fn f [x]) = fn1 ρ f x := by
  rw [eval_fn, fn1]
  cases h : eval ρ x with
  | none => simp [seqO, h]
  | some v => simp [seqO, h]

/-- The functions that are called keep the value. -/
def SoundFn (lic : Lic F) (ρ : Env F) (R : BuiltIn → Expr F → Res (Expr F)) : Prop :=
  ∀ f x r, Good x → R f x = .ok r → FnOk lic ρ r (fn1 ρ f x)

theorem FnOk.of_eval {lic : Lic F} {ρ : Env F} {r : Expr F} {v : Option ℂ} (hg : Good r) (h : eval ρ r = v) : FnOk lic ρ r v :=
  ⟨hg, fun _ z hz => by rw [h, hz]⟩

theorem FnOk.none {lic : Lic F} {ρ : Env F} {r : Expr F} {v : Option ℂ} (hg : Good r) (h : v = none) : FnOk lic ρ r v :=
  ⟨hg, fun _ z hz => by rw [h] at hz; cases hz⟩

theorem FnOk.mono {lic : Lic F} {ρ : Env F} {r : Expr F} {v w : Option ℂ} (h : FnOk lic ρ r v) (hw : ∀ z, w = some z → v = some z) : FnOk lic ρ r w :=
  ⟨h.1, fun ht z hz => h.2 ht z (hw z hz)⟩

section
variable {lic : Lic F} {ρ : Env F} {K : Ctors F}

theorem mul2_ok (hK : Sound lic ρ K) {a b r : Expr F} {u v : Option ℂ} (ha : FnOk lic ρ a u) (hb : FnOk lic ρ b v) (h : K.mul [a, b] = .ok r) :
    FnOk lic ρ r (mulO u v) := by
  have h1 := hK.mul [a, b] r (by simpa using ⟨ha.1, hb.1⟩) h
  refine ⟨h1.1, fun ht z hz => h1.2 ht z ?_⟩
  obtain ⟨x, y, hx, hy, rfl⟩ := mulO_eq_some.1 hz
  simp [prodO_cons, ha.2 ht x hx, hb.2 ht y hy]

theorem self_ok (x : Expr F) (hg : Good x) : FnOk lic ρ x (eval ρ x) := .of_eval hg rfl

theorem int_ok {n : Int} (h : InI64 n) : FnOk lic ρ (.int n) (some (n : ℂ)) := .of_eval (good_int.2 h) (eval_int ρ _)

theorem negOne_ok : FnOk lic ρ (.int (-1)) (some (-1)) := by
  have := int_ok (lic := lic) (ρ := ρ) (n := -1) (inI64_small (by decide) (by decide))
  simpa using this

theorem imag_ok : FnOk lic ρ .imag (some I) := .of_eval good_imag (eval_imag ρ)
theorem pi_ok : FnOk lic ρ (.const .pi) (some (Real.pi : ℂ)) := .of_eval (good_const _) (eval_const ρ _)

theorem negE_ok (hK : Sound lic ρ K) {x r : Expr F} {u : Option ℂ} (hx : FnOk lic ρ x u) (h : negE K x = .ok r) : FnOk lic ρ r (u.map (-·)) := by
  refine (mul2_ok hK negOne_ok hx h).mono fun z hz => ?_
  cases u with
  | none => simp at hz
  | some v => simpa using hz

theorem divE_ok (hK : Sound lic ρ K) {a b r : Expr F} {u : Option ℂ} {v : ℂ} (hv : v ≠ 0) (ha : FnOk lic ρ a u) (hb : FnOk lic ρ b (some v))
    (h : divE K a b = .ok r) : FnOk lic ρ r (u.map (· * v⁻¹)) := by
  unfold divE at h
  cases hp : K.pow b (.int (-1)) with
  | error e => simp [hp] at h
  | ok p =>
    simp only [hp] at h
    have h1 := hK.pow b (.int (-1)) p hb.1 good_negOne hp
    have hpo : FnOk lic ρ p (some v⁻¹) := by
      refine ⟨h1.1, fun ht z hz => h1.2 ht z ?_⟩
      rw [hb.2 ht v rfl, eval_int, powO_some, powVal_of_ne hv, ← hz]
      push_cast
      rw [cpow_neg_one]
    refine (mul2_ok hK ha hpo h).mono fun z hz => ?_
    cases u with
    | none => simp at hz
    | some v => simpa using hz

theorem timesCall_ok (hK : Sound lic ρ K) {c r : Expr F} {x : Res (Expr F)} {w : ℂ} {u : Option ℂ} (hc : FnOk lic ρ c (some w))
    (hx : ∀ y, x = .ok y → FnOk lic ρ y u) (h : timesCall K c x = .ok r) : FnOk lic ρ r (u.map (w * ·)) := by
  unfold timesCall at h
  cases x with
  | error e => simp at h
  | ok y =>
    refine (mul2_ok hK hc (hx y rfl) h).mono fun z hz => ?_
    cases u with
    | none => simp at hz
    | some v => simpa using hz

theorem fn1_ok {R : BuiltIn → Expr F → Res (Expr F)} (hR : SoundFn lic ρ R) {f : BuiltIn} {y r : Expr F} {u : Option ℂ} (hy : FnOk lic ρ y u)
    (h : R f y = .ok r) : FnOk lic ρ r (u.bind fun v => fnVal f [v]) := by
  have h1 := hR f y r hy.1 h
  refine ⟨h1.1, fun ht z hz => h1.2 ht z ?_⟩
  cases u with
  | none => simp at hz
  | some v => simpa [fn1, hy.2 ht v rfl] using hz

theorem callNeg_ok (hK : Sound lic ρ K) {R : BuiltIn → Expr F → Res (Expr F)} (hR : SoundFn lic ρ R) {f : BuiltIn} {x r : Expr F} (hg : Good x)
    (h : callNeg K R f x = .ok r) : FnOk lic ρ r ((eval ρ x).bind fun v => fnVal f [-v]) := by
  unfold callNeg at h
  cases hn : negE K x with
  | error e => simp [hn] at h
  | ok y =>
    simp only [hn] at h
    have h1 := fn1_ok hR (negE_ok hK (self_ok x hg) hn) h
    refine h1.mono fun z hz => ?_
    cases hx : eval ρ x with
    | none => simp [hx] at hz
    | some v => simpa [hx] using hz

theorem floatFn_ok (hK : Sound lic ρ K) {f : BuiltIn} {x r : Expr F} {c : F × F} (hg : Good x) (hc : complexCast x = some c)
    (h : fromComplex K (FloatOps.complexFn f c.1 c.2) = .ok r) : FnOk lic ρ r (fn1 ρ f x) := by
  obtain ⟨h1, h2⟩ := fromComplex_ok hK h
  refine ⟨h1, fun ht z hz => ?_⟩
  rw [fn1] at hz
  cases hx : eval ρ x with
  | none => simp [hx] at hz
  | some v =>
    obtain ⟨hr, hi⟩ := complexCast_ok ρ hg hc v hx
    have hz' : fnVal f [⟨v.re, v.im⟩] = some z := by simpa [hx] using hz
    obtain ⟨h3, h4⟩ := FloatSem.val_complexFn f c.1 c.2 v.re v.im z hr hi hz'
    exact h2 ht z h3 h4

theorem node_ok {f : BuiltIn} {x : Expr F} (hg : Good x) : FnOk lic ρ (.fn f [x]) (fn1 ρ f x) :=
  .of_eval (good_fn.2 (by simpa using hg)) (eval_fn1 ρ f x)

theorem undef_ok {f : BuiltIn} {x r : Expr F} (hg : Good r) (h : (isZoo x || isUndef x) = true) : FnOk lic ρ r (fn1 ρ f x) := by
  apply FnOk.none hg
  rcases Bool.or_eq_true _ _ ▸ h with h | h
  · rw [isZoo_iff.1 h]; simp [fn1]
  · rw [isUndef_iff.1 h]; simp [fn1]

theorem finishFn_ok (hK : Sound lic ρ K) {f : BuiltIn} {x r : Expr F} (hg : Good x) (h : finishFn K f x = .ok r) : FnOk lic ρ r (fn1 ρ f x) := by
  unfold finishFn at h
  cases hc : complexCast x with
  | some c => simp only [hc] at h; exact floatFn_ok hK hg hc h
  | none =>
    simp only [hc] at h
    by_cases hu : (isZoo x || isUndef x) = true
    · rw [if_pos hu] at h; cases h; exact undef_ok good_undef hu
    · rw [if_neg hu] at h; cases h; exact node_ok hg

/-- If the argument is split by the imaginary unit, its value is the value of the rest times the imaginary unit. -/
theorem swapArg_ok (hK : Sound lic ρ K) {x y : Expr F} (hg : Good x) (h : swapArg K x = .ok (some y)) :
    FnOk lic ρ y ((eval ρ x).map (· * I⁻¹)) := by
  unfold swapArg at h
  by_cases h1 : isImag x = true
  · rw [if_pos h1] at h
    cases h
    rw [isImag_iff.1 h1, eval_imag]
    apply FnOk.of_eval good_one
    simp
  · rw [if_neg h1] at h
    by_cases h2 : hasImag x = true
    · rw [if_pos h2] at h
      cases hd : divE K x .imag with
      | error e => simp [hd] at h
      | ok w =>
        simp only [hd] at h
        cases h
        exact divE_ok hK I_ne_zero (self_ok x hg) imag_ok hd
    · rw [if_neg h2] at h; cases h

theorem swap_ok {R : BuiltIn → Expr F → Res (Expr F)} (hK : Sound lic ρ K) (hR : SoundFn lic ρ R) {f g : BuiltIn} {x y r : Expr F} (hg : Good x)
    (hs : swapArg K x = .ok (some y)) (hfg : ∀ w z, fnVal f [w * I] = some z → fnVal g [w] = some z) (h : R g y = .ok r) : FnOk lic ρ r (fn1 ρ f x) := by
  refine (fn1_ok hR (swapArg_ok hK hg hs) h).mono fun z hz => ?_
  cases hx : eval ρ x with
  | none => simp [fn1, hx] at hz
  | some v =>
    simp only [fn1, hx, Option.bind_some] at hz
    simp only [Option.map_some, Option.bind_some]
    exact hfg _ _ (by rwa [div_I])

theorem swapI_ok {R : BuiltIn → Expr F → Res (Expr F)} (hK : Sound lic ρ K) (hR : SoundFn lic ρ R) {f g : BuiltIn} {x y r : Expr F} (hg : Good x)
    (hs : swapArg K x = .ok (some y)) (hfg : ∀ w z, fnVal f [w * I] = some z → (fnVal g [w]).map (I * ·) = some z)
    (h : timesCall K .imag (R g y) = .ok r) : FnOk lic ρ r (fn1 ρ f x) := by
  refine (timesCall_ok hK imag_ok (fun s hs' => fn1_ok hR (swapArg_ok hK hg hs) hs') h).mono fun z hz => ?_
  cases hx : eval ρ x with
  | none => simp [fn1, hx] at hz
  | some v =>
    simp only [fn1, hx, Option.bind_some] at hz
    simp only [Option.map_some, Option.bind_some]
    exact hfg _ _ (by rwa [div_I])

theorem odd_ok {R : BuiltIn → Expr F → Res (Expr F)} (hK : Sound lic ρ K) (hR : SoundFn lic ρ R) {f : BuiltIn} {x r : Expr F} (hg : Good x)
    (hf : ∀ v z, fnVal f [v] = some z → fnVal f [-v] = some (-z))
    (h : timesCall K (.int (-1)) (callNeg K R f x) = .ok r) : FnOk lic ρ r (fn1 ρ f x) := by
  refine (timesCall_ok hK negOne_ok (fun s hs => callNeg_ok hK hR hg hs) h).mono fun z hz => ?_
  cases hx : eval ρ x with
  | none => simp [fn1, hx] at hz
  | some v =>
    simp only [fn1, hx, Option.bind_some] at hz
    simp [hf v z hz]

theorem even_ok {R : BuiltIn → Expr F → Res (Expr F)} (hK : Sound lic ρ K) (hR : SoundFn lic ρ R) {f : BuiltIn} {x r : Expr F} (hg : Good x)
    (hf : ∀ v z, fnVal f [v] = some z → fnVal f [-v] = some z) (h : callNeg K R f x = .ok r) : FnOk lic ρ r (fn1 ρ f x) := by
  refine (callNeg_ok hK hR hg h).mono fun z hz => ?_
  cases hx : eval ρ x with
  | none => simp [fn1, hx] at hz
  | some v =>
    simp only [fn1, hx, Option.bind_some] at hz
    simpa using hf v z hz

theorem tryRat_ok {x : Expr F} {r : RatC} (hg : Good x) (h : tryRat x = some r) : r.Canonical ∧ eval ρ x = some ((r.val : ℚ) : ℂ) := by
  unfold tryRat at h
  split at h
  · cases h; exact ⟨(good_rat.1 hg).1, eval_rat ρ _⟩
  · cases h; exact ⟨canonical_ofInt (good_int.1 hg), by rw [eval_int, ratOfInt_val]; push_cast; rfl⟩
  · cases h

theorem piCoeff_ok {x : Expr F} {r : RatC} (hg : Good x) (h : piCoeff x = some r) : r.Canonical ∧ eval ρ x = some ((r.val : ℚ) * (Real.pi : ℂ)) := by
  unfold piCoeff at h
  by_cases hp : isConst .pi (asCoeffMul x).2 = true
  · rw [if_pos hp] at h
    obtain ⟨h1, h2, _, _, _, h6⟩ := asCoeffMul_ok hg
    obtain ⟨hc, hv⟩ := tryRat_ok (ρ := ρ) h1 h
    refine ⟨hc, ?_⟩
    rw [← h6 ρ, hv, isConst_iff.1 hp, eval_const]
    rfl
  · rw [if_neg hp] at h; cases h

theorem fnOfPi_ok (hK : Sound lic ρ K) {f : BuiltIn} {q : RatC} {r : Expr F} (hq : q.Canonical) (h : fnOfPi K f q = .ok r) :
    FnOk lic ρ r (fnVal f [(q.val : ℚ) * (Real.pi : ℂ)]) := by
  unfold fnOfPi at h
  cases hc : (ratExpr q : Res (Expr F)) with
  | error e => simp [hc] at h
  | ok c =>
    simp only [hc] at h
    cases hm : K.mul [c, .const .pi] with
    | error e => simp [hm] at h
    | ok x =>
      simp only [hm] at h
      cases h
      obtain ⟨_, hg, hv, _⟩ := ratExpr_ok hq hc
      have h1 := mul2_ok hK (.of_eval hg (hv ρ)) pi_ok hm
      refine ⟨good_fn.2 (by simpa using h1.1), fun ht z hz => ?_⟩
      rw [eval_fn1, fn1, h1.2 ht _ rfl]
      exact hz

theorem piOver_ok (hK : Sound lic ρ K) {n : Int} {r : Expr F} (hn : InI64 n) (h0 : n ≠ 0) (h : piOver K n = .ok r) :
    FnOk lic ρ r (some (Real.pi / n : ℂ)) := by
  unfold piOver at h
  exact divE_ok hK (by exact_mod_cast h0) pi_ok (int_ok hn) h

/-! ## Trigonometric functions -/

theorem ratIsZero_val {r : RatC} (hr : r.Canonical) (h : ratIsZero r = true) : r.val = 0 := by
  simp only [ratIsZero, decide_eq_true_eq] at h
  simp [RatC.val, h]

theorem ratIsOne_val {r : RatC} (h : ratIsOne r = true) (hr : r.Canonical) : r.val = 1 := by
  have hd := hr.d_ne
  simp only [ratIsOne, decide_eq_true_eq] at h
  simp only [RatC.val, h]
  exact div_self hd

theorem ratEq_val {a b : RatC} (h : ratEq a b = true) : a.val = b.val := by
  simp only [ratEq, Bool.and_eq_true, decide_eq_true_eq] at h
  simp [RatC.val, h.1, h.2]

theorem cosPi_ok (hK : Sound lic ρ K) {q : RatC} {r : Expr F} (hq : q.Canonical) (h : cosPi K q = .ok r) :
    FnOk lic ρ r (some (cos ((q.val : ℚ) * (Real.pi : ℂ)))) := by
  obtain ⟨q', hm, hc, _, _, k, hk⟩ := C08_mod_pi q hq
  have e : cos ((q.val : ℚ) * (Real.pi : ℂ)) = cos ((q'.val : ℚ) * (Real.pi : ℂ)) := by
    rw [hk]; push_cast; exact cos_pi_shift _ _
  unfold cosPi at h
  simp only [hm] at h
  rw [e]
  by_cases h0 : ratIsZero q' = true
  · rw [if_pos h0] at h; cases h
    rw [ratIsZero_val hc h0]
    exact .of_eval good_one (by simp)
  rw [if_neg h0] at h
  by_cases h1 : ratIsOne q' = true
  · rw [if_pos h1] at h; cases h
    rw [ratIsOne_val h1 hc]
    exact .of_eval good_negOne (by simp)
  rw [if_neg h1] at h
  by_cases h2 : (ratEq q' ⟨1, 2⟩ || ratEq q' ⟨-1, 2⟩) = true
  · rw [if_pos h2] at h; cases h
    apply FnOk.of_eval good_zero
    rw [eval_int]
    rcases Bool.or_eq_true _ _ ▸ h2 with h2 | h2
    · rw [ratEq_val h2]
      rw [show ((RatC.val ⟨1, 2⟩ : ℚ) : ℂ) * (Real.pi : ℂ) = (Real.pi : ℂ) / 2 by simp [RatC.val]; ring, cos_pi_div_two]; simp
    · rw [ratEq_val h2]
      rw [show ((RatC.val ⟨-1, 2⟩ : ℚ) : ℂ) * (Real.pi : ℂ) = -((Real.pi : ℂ) / 2) by simp [RatC.val]; ring, cos_neg, cos_pi_div_two]; simp
  rw [if_neg h2] at h
  exact fnOfPi_ok hK hc h

theorem sinPi_ok (hK : Sound lic ρ K) {q : RatC} {r : Expr F} (hq : q.Canonical) (h : sinPi K q = .ok r) :
    FnOk lic ρ r (some (sin ((q.val : ℚ) * (Real.pi : ℂ)))) := by
  obtain ⟨q', hm, hc, _, _, k, hk⟩ := C08_mod_pi q hq
  have e : sin ((q.val : ℚ) * (Real.pi : ℂ)) = sin ((q'.val : ℚ) * (Real.pi : ℂ)) := by
    rw [hk]; push_cast; exact sin_pi_shift _ _
  unfold sinPi at h
  simp only [hm] at h
  rw [e]
  by_cases h0 : (ratIsZero q' || ratIsOne q') = true
  · rw [if_pos h0] at h; cases h
    apply FnOk.of_eval good_zero
    rcases Bool.or_eq_true _ _ ▸ h0 with h0 | h0
    · rw [ratIsZero_val hc h0]; simp
    · rw [ratIsOne_val h0 hc]; simp
  rw [if_neg h0] at h
  by_cases h2 : ratEq q' ⟨1, 2⟩ = true
  · rw [if_pos h2] at h; cases h
    apply FnOk.of_eval good_one
    rw [ratEq_val h2]
    rw [show ((RatC.val ⟨1, 2⟩ : ℚ) : ℂ) * (Real.pi : ℂ) = (Real.pi : ℂ) / 2 by simp [RatC.val]; ring, sin_pi_div_two]; simp
  rw [if_neg h2] at h
  by_cases h3 : ratEq q' ⟨-1, 2⟩ = true
  · rw [if_pos h3] at h; cases h
    apply FnOk.of_eval good_negOne
    rw [ratEq_val h3]
    rw [show ((RatC.val ⟨-1, 2⟩ : ℚ) : ℂ) * (Real.pi : ℂ) = -((Real.pi : ℂ) / 2) by simp [RatC.val]; ring, sin_neg, sin_pi_div_two]; simp
  rw [if_neg h3] at h
  exact fnOfPi_ok hK hc h

theorem ratSub_ok {a b r : RatC} (ha : a.Canonical) (hb : b.Canonical) (h : ratSub a b = .ok r) :
    r.Canonical ∧ r.val = a.val - b.val := by
  have hs := C05_sub a b ha hb
  rw [h] at hs
  unfold ratOutcome at hs
  split_ifs at hs with h1 h2
  simp only [Except.ok.injEq] at hs
  have hpos : 0 < a.d * b.d := mul_pos ha.2.2.1 hb.2.2.1
  have e1 := ha.d_ne
  have e2 := hb.d_ne
  have hv : ((a.n * b.d - b.n * a.d : Int) : ℚ) / ((a.d * b.d : Int) : ℚ) = a.val - b.val := by
    simp only [RatC.val]; push_cast; field_simp
  subst hs
  refine ⟨?_, canon_val _⟩
  rw [← hv]
  exact (ratMk_spec _ _ h1.2.2.1 h1.2.2.2 h2 (pos_ne_minI hpos) hpos.ne').2

theorem tanRange_ok {q r : RatC} (hq : q.Canonical) (h : tanRange q = .ok r) : r.Canonical ∧ ∃ k : ℤ, q.val = r.val + k := by
  have h1 : (⟨1, 1⟩ : RatC).Canonical := canonical_ofInt (n := 1) (inI64_small (by decide) (by decide))
  unfold tanRange at h
  cases hg : ratGt q ⟨1, 2⟩ with
  | error e => simp [hg] at h
  | ok b =>
    cases b with
    | true =>
      simp only [hg] at h
      obtain ⟨hc, hv⟩ := ratSub_ok hq h1 h
      exact ⟨hc, 1, by rw [hv]; simp [RatC.val]⟩
    | false =>
      simp only [hg] at h
      cases hl : ratLt q ⟨-1, 2⟩ with
      | error e => simp [hl] at h
      | ok b =>
        cases b with
        | true =>
          simp only [hl] at h
          obtain ⟨hc, hv⟩ := ratAdd_ok h1 hq h
          exact ⟨hc, -1, by rw [hv]; simp [RatC.val]⟩
        | false =>
          simp only [hl] at h
          cases h
          exact ⟨hq, 0, by simp⟩

theorem tanPi_ok (hK : Sound lic ρ K) {q : RatC} {r : Expr F} (hq : q.Canonical) (h : tanPi K q = .ok r) :
    FnOk lic ρ r (fnVal .tan [(q.val : ℚ) * (Real.pi : ℂ)]) := by
  obtain ⟨q', hm, hc, _, _, k, hk⟩ := C08_mod_pi q hq
  unfold tanPi at h
  simp only [hm] at h
  cases ht : tanRange q' with
  | error e => simp [ht] at h
  | ok s =>
    simp only [ht] at h
    obtain ⟨hsc, k', hk'⟩ := tanRange_ok hc ht
    have e : fnVal .tan [(q.val : ℚ) * (Real.pi : ℂ)] = fnVal .tan [(s.val : ℚ) * (Real.pi : ℂ)] := by
      have : ((q.val : ℚ) : ℂ) = (s.val : ℚ) + ((k' + 2 * k : ℤ) : ℂ) := by rw [hk, hk']; push_cast; ring
      rw [this, fnVal_tan_shift]
    rw [e]
    by_cases h0 : ratIsZero s = true
    · rw [if_pos h0] at h; cases h
      rw [ratIsZero_val hsc h0]
      exact .of_eval good_zero (by simp [fnVal])
    rw [if_neg h0] at h
    by_cases h2 : (ratEq s ⟨1, 2⟩ || ratEq s ⟨-1, 2⟩) = true
    · rw [if_pos h2] at h; cases h
      apply FnOk.none good_zoo
      rcases Bool.or_eq_true _ _ ▸ h2 with h2 | h2
      · rw [ratEq_val h2]
        rw [show ((RatC.val ⟨1, 2⟩ : ℚ) : ℂ) * (Real.pi : ℂ) = (Real.pi : ℂ) / 2 by simp [RatC.val]; ring]; simp [fnVal]
      · rw [ratEq_val h2]
        rw [show ((RatC.val ⟨-1, 2⟩ : ℚ) : ℂ) * (Real.pi : ℂ) = -((Real.pi : ℂ) / 2) by simp [RatC.val]; ring]; simp [fnVal]
    rw [if_neg h2] at h
    exact fnOfPi_ok hK hsc h

theorem pi_fn1 {f : BuiltIn} {x r : Expr F} {q : RatC} (hg : Good x) (hp : piCoeff x = some q) (h : FnOk lic ρ r (fnVal f [(q.val : ℚ) * (Real.pi : ℂ)])) :
    FnOk lic ρ r (fn1 ρ f x) := by
  rw [fn1, (piCoeff_ok (ρ := ρ) hg hp).2]; exact h

theorem zero_fn1 {f : BuiltIn} {x r : Expr F} (hx : isInt 0 x = true) (h : FnOk lic ρ r (fnVal f [0])) : FnOk lic ρ r (fn1 ρ f x) := by
  rw [fn1, isInt_iff.1 hx, eval_int]; simpa using h

theorem cosFn_ok {R : BuiltIn → Expr F → Res (Expr F)} (hK : Sound lic ρ K) (hR : SoundFn lic ρ R) {x r : Expr F} (hg : Good x)
    (h : cosFn K R x = .ok r) : FnOk lic ρ r (fn1 ρ .cos x) := by
  unfold cosFn at h
  cases hs : swapArg K x with
  | error e => simp [hs] at h
  | ok o =>
    cases o with
    | some y =>
      simp only [hs] at h
      exact swap_ok hK hR hg hs (fun w z hz => by simpa [fnVal, cos_of_I] using hz) h
    | none =>
      simp only [hs] at h
      cases hp : piCoeff x with
      | some q =>
        simp only [hp] at h
        exact pi_fn1 hg hp (cosPi_ok hK (piCoeff_ok (ρ := ρ) hg hp).1 h)
      | none =>
        simp only [hp] at h
        by_cases h0 : (!isConst .pi (asCoeffMul x).2 && isInt 0 (asCoeffMul x).1) = true
        · rw [if_pos h0] at h; cases h
          refine ⟨good_one, fun _ z hz => ?_⟩
          have h1 : isInt 0 (asCoeffMul x).1 = true := (Bool.and_eq_true _ _ ▸ h0).2
          have hv := (asCoeffMul_ok hg).2.2.2.2.2 ρ
          rw [isInt_iff.1 h1, eval_int] at hv
          cases hx : eval ρ x with
          | none => simp [fn1, hx] at hz
          | some v =>
            rw [hx] at hv
            obtain ⟨a, b, ha, _, hvz⟩ := mulO_eq_some.1 hv
            have hv0 : v = 0 := by rw [hvz, ← Option.some.inj ha]; simp
            simp only [fn1, hx, Option.bind_some, hv0] at hz
            rw [eval_int, ← hz]; simp [fnVal]
        rw [if_neg h0] at h
        by_cases hn : isNegNum x = true
        · rw [if_pos hn] at h
          exact even_ok hK hR hg (fun v z hz => by simpa [fnVal] using hz) h
        rw [if_neg hn] at h
        exact finishFn_ok hK hg h

theorem fnVal_tan_neg (v z : ℂ) (hz : fnVal .tan [v] = some z) : fnVal .tan [-v] = some (-z) := by
  simp only [fnVal, cos_neg, tan_neg] at hz ⊢
  split_ifs at hz ⊢ with h
  simpa using hz

theorem sinFn_ok {R : BuiltIn → Expr F → Res (Expr F)} (hK : Sound lic ρ K) (hR : SoundFn lic ρ R) {x r : Expr F} (hg : Good x)
    (h : sinFn K R x = .ok r) : FnOk lic ρ r (fn1 ρ .sin x) := by
  unfold sinFn at h
  cases hs : swapArg K x with
  | error e => simp [hs] at h
  | ok o =>
    cases o with
    | some y =>
      simp only [hs] at h
      exact swapI_ok hK hR hg hs (fun w z hz => by simpa [fnVal, sin_of_I] using hz) h
    | none =>
      simp only [hs] at h
      cases hp : piCoeff x with
      | some q =>
        simp only [hp] at h
        exact pi_fn1 hg hp (sinPi_ok hK (piCoeff_ok (ρ := ρ) hg hp).1 h)
      | none =>
        simp only [hp] at h
        by_cases h0 : isInt 0 x = true
        · rw [if_pos h0] at h; cases h
          exact zero_fn1 h0 (.of_eval good_zero (by simp [fnVal]))
        rw [if_neg h0] at h
        by_cases hn : isNegNum x = true
        · rw [if_pos hn] at h
          exact odd_ok hK hR hg (fun v z hz => by simpa [fnVal] using hz) h
        rw [if_neg hn] at h
        exact finishFn_ok hK hg h

theorem tan_swap (w z : ℂ) (hz : fnVal .tan [w * I] = some z) : (fnVal .tanh [w]).map (I * ·) = some z := by
  simp only [fnVal, cos_of_I, tan_of_I] at hz ⊢
  split_ifs at hz ⊢ with h
  simpa using hz

theorem tanh_swap (w z : ℂ) (hz : fnVal .tanh [w * I] = some z) : (fnVal .tan [w]).map (I * ·) = some z := by
  simp only [fnVal, cosh_of_I, tanh_of_I] at hz ⊢
  split_ifs at hz ⊢ with h
  simpa using hz

theorem tanFn_ok {R : BuiltIn → Expr F → Res (Expr F)} (hK : Sound lic ρ K) (hR : SoundFn lic ρ R) {x r : Expr F} (hg : Good x)
    (h : tanFn K R x = .ok r) : FnOk lic ρ r (fn1 ρ .tan x) := by
  unfold tanFn at h
  cases hs : swapArg K x with
  | error e => simp [hs] at h
  | ok o =>
    cases o with
    | some y =>
      simp only [hs] at h
      exact swapI_ok hK hR hg hs tan_swap h
    | none =>
      simp only [hs] at h
      cases hp : piCoeff x with
      | some q =>
        simp only [hp] at h
        exact pi_fn1 hg hp (tanPi_ok hK (piCoeff_ok (ρ := ρ) hg hp).1 h)
      | none =>
        simp only [hp] at h
        by_cases h0 : isInt 0 x = true
        · rw [if_pos h0] at h; cases h
          exact zero_fn1 h0 (.of_eval good_zero (by simp [fnVal]))
        rw [if_neg h0] at h
        by_cases hn : isNegNum x = true
        · rw [if_pos hn] at h
          exact odd_ok hK hR hg fnVal_tan_neg h
        rw [if_neg hn] at h
        exact finishFn_ok hK hg h

/-! ## Inverse trigonometric functions -/

theorem one_fn1 {f : BuiltIn} {x r : Expr F} (hx : isInt 1 x = true) (h : FnOk lic ρ r (fnVal f [1])) : FnOk lic ρ r (fn1 ρ f x) := by
  rw [fn1, isInt_iff.1 hx, eval_int]; simpa using h
theorem negOne_fn1 {f : BuiltIn} {x r : Expr F} (hx : isInt (-1) x = true) (h : FnOk lic ρ r (fnVal f [-1])) : FnOk lic ρ r (fn1 ρ f x) := by
  rw [fn1, isInt_iff.1 hx, eval_int]; simpa using h

theorem asin_one : fnVal .arcsin [1] = some (Real.pi / 2 : ℂ) := by
  simp only [fnVal, one_pow, sub_self, csqrt_zero, mul_one, add_zero, log_I, Option.some.injEq]
  linear_combination (-(Real.pi : ℂ) / 2) * I_sq

theorem asin_zero : fnVal .arcsin [0] = some 0 := by simp [fnVal]

theorem asin_neg (v z : ℂ) (hz : fnVal .arcsin [v] = some z) : fnVal .arcsin [-v] = some (-z) := by
  have := arcsin_neg v
  simp only [fnVal, Option.some.injEq] at hz ⊢
  rw [this, hz]

theorem acos_asin (v : ℂ) : fnVal .arccos [v] = (fnVal .arcsin [v]).map (fun z : ℂ => (Real.pi : ℂ) / 2 - z) := rfl

theorem atan_neg (v z : ℂ) (hz : fnVal .arctan [v] = some z) : fnVal .arctan [-v] = some (-z) := by
  simp only [fnVal] at hz ⊢
  have e : (-v = I ∨ -v = -I) ↔ (v = I ∨ v = -I) := by
    rw [neg_inj, neg_eq_iff_eq_neg]; tauto
  simp only [e]
  split_ifs at hz ⊢ with h
  simp only [Option.some.injEq] at hz ⊢
  rw [← hz, show 1 - I * -v = 1 + I * v by ring, show 1 + I * -v = 1 - I * v by ring]
  ring

theorem atan_one : fnVal .arctan [1] = some (Real.pi / 4 : ℂ) := by
  have h1 : ¬ ((1 : ℂ) = I ∨ (1 : ℂ) = -I) := by
    rintro (h | h)
    · simpa using congrArg Complex.re h
    · simpa using congrArg Complex.re h
  simp only [fnVal, if_neg h1, mul_one, Option.some.injEq]
  have hc : (1 - I : ℂ) = (starRingEnd ℂ) (1 + I) := by simp [sub_eq_add_neg]
  have ha : arg (1 + I) ≠ Real.pi := by rw [arg_one_I]; linarith [Real.pi_pos]
  rw [hc, log_conj _ ha]
  have hl : log (1 + I) = (Real.log ‖(1 + I : ℂ)‖ : ℂ) + (Real.pi / 4 : ℂ) * I := by
    rw [log, arg_one_I]; push_cast; rfl
  rw [hl]
  simp only [map_add, map_mul, conj_ofReal, conj_I, map_div₀]
  have h4 : (starRingEnd ℂ) 4 = 4 := by
    have := conj_ofReal 4
    simpa using this
  rw [h4]
  linear_combination (-(Real.pi : ℂ) / 4) * I_sq

theorem acosFn_ok (hK : Sound lic ρ K) {x r : Expr F} (hg : Good x) (h : acosFn K x = .ok r) : FnOk lic ρ r (fn1 ρ .arccos x) := by
  unfold acosFn at h
  by_cases h0 : isInt 0 x = true
  · rw [if_pos h0] at h
    refine zero_fn1 h0 ?_
    rw [acos_asin, asin_zero]
    have := piOver_ok hK (inI64_small (by decide) (by decide)) (by decide) h
    simpa using this
  rw [if_neg h0] at h
  by_cases h1 : isInt 1 x = true
  · rw [if_pos h1] at h; cases h
    refine one_fn1 h1 (.of_eval good_zero ?_)
    rw [acos_asin, asin_one]; simp
  rw [if_neg h1] at h
  by_cases h2 : isInt (-1) x = true
  · rw [if_pos h2] at h; cases h
    refine negOne_fn1 h2 (.of_eval (good_const _) ?_)
    rw [acos_asin, asin_neg 1 _ asin_one, eval_const]
    simp [SymConst.val]
  rw [if_neg h2] at h
  exact finishFn_ok hK hg h

theorem asinFn_ok {R : BuiltIn → Expr F → Res (Expr F)} (hK : Sound lic ρ K) (hR : SoundFn lic ρ R) {x r : Expr F} (hg : Good x)
    (h : asinFn K R x = .ok r) : FnOk lic ρ r (fn1 ρ .arcsin x) := by
  unfold asinFn at h
  by_cases h0 : isInt 0 x = true
  · rw [if_pos h0] at h; cases h
    exact zero_fn1 h0 (.of_eval good_zero (by rw [asin_zero]; simp))
  rw [if_neg h0] at h
  by_cases h1 : isInt 1 x = true
  · rw [if_pos h1] at h
    refine one_fn1 h1 ?_
    rw [asin_one]
    have := piOver_ok hK (inI64_small (by decide) (by decide)) (by decide) h
    simpa using this
  rw [if_neg h1] at h
  by_cases h2 : isInt (-1) x = true
  · rw [if_pos h2] at h
    refine negOne_fn1 h2 ?_
    rw [asin_neg 1 _ asin_one]
    have := timesCall_ok hK negOne_ok (fun y hy => piOver_ok hK (inI64_small (by decide) (by decide)) (by decide) hy) h
    simpa using this
  rw [if_neg h2] at h
  by_cases hn : isNegNum x = true
  · rw [if_pos hn] at h
    exact odd_ok hK hR hg asin_neg h
  rw [if_neg hn] at h
  exact finishFn_ok hK hg h

theorem atanFn_ok {R : BuiltIn → Expr F → Res (Expr F)} (hK : Sound lic ρ K) (hR : SoundFn lic ρ R) {x r : Expr F} (hg : Good x)
    (h : atanFn K R x = .ok r) : FnOk lic ρ r (fn1 ρ .arctan x) := by
  unfold atanFn at h
  by_cases h0 : isInt 0 x = true
  · rw [if_pos h0] at h; cases h
    refine zero_fn1 h0 (.of_eval good_zero ?_)
    have : ¬ ((0 : ℂ) = I ∨ (0 : ℂ) = -I) := by simp [eq_comm, I_ne_zero]
    simp only [fnVal, if_neg this, eval_int]; simp
  rw [if_neg h0] at h
  by_cases h1 : isInt 1 x = true
  · rw [if_pos h1] at h
    refine one_fn1 h1 ?_
    rw [atan_one]
    have := piOver_ok hK (inI64_small (by decide) (by decide)) (by decide) h
    simpa using this
  rw [if_neg h1] at h
  by_cases h2 : isInt (-1) x = true
  · rw [if_pos h2] at h
    refine negOne_fn1 h2 ?_
    rw [atan_neg 1 _ atan_one]
    have := timesCall_ok hK negOne_ok (fun y hy => piOver_ok hK (inI64_small (by decide) (by decide)) (by decide) hy) h
    simpa using this
  rw [if_neg h2] at h
  by_cases hn : isNegNum x = true
  · rw [if_pos hn] at h
    exact odd_ok hK hR hg atan_neg h
  rw [if_neg hn] at h
  exact finishFn_ok hK hg h

/-! ## Hyperbolic functions -/

theorem finishHyp_ok (hK : Sound lic ρ K) {f inv : BuiltIn} {x r : Expr F} (hg : Good x)
    (hinv : ∀ v w z, fnVal inv [v] = some w → fnVal f [w] = some z → z = v)
    (h : finishHyp K f inv x = .ok r) : FnOk lic ρ r (fn1 ρ f x) := by
  unfold finishHyp at h
  cases hc : complexCast x with
  | some c => simp only [hc] at h; exact floatFn_ok hK hg hc h
  | none =>
    simp only [hc] at h
    by_cases hu : (isZoo x || isUndef x) = true
    · rw [if_pos hu] at h; cases h; exact undef_ok good_undef hu
    · rw [if_neg hu] at h
      split at h
      · rename_i g y
        by_cases hgi : g = inv
        · rw [if_pos hgi] at h
          cases h
          subst hgi
          have hy : Good r := good_fn.1 hg r (by simp)
          refine ⟨hy, fun _ z hz => ?_⟩
          rw [fn1, eval_fn1, fn1] at hz
          cases hx : eval ρ r with
          | none => simp [hx] at hz
          | some v =>
            simp only [hx, Option.bind_some] at hz
            cases hw : fnVal g [v] with
            | none => simp [hw] at hz
            | some w =>
              simp only [hw, Option.bind_some] at hz
              rw [hinv v w z hw hz]
        · rw [if_neg hgi] at h
          cases h
          exact node_ok hg
      · cases h
        exact node_ok hg

theorem coshFn_ok {R : BuiltIn → Expr F → Res (Expr F)} (hK : Sound lic ρ K) (hR : SoundFn lic ρ R) {x r : Expr F} (hg : Good x)
    (h : coshFn K R x = .ok r) : FnOk lic ρ r (fn1 ρ .cosh x) := by
  unfold coshFn at h
  cases hs : swapArg K x with
  | error e => simp [hs] at h
  | ok o =>
    cases o with
    | some y =>
      simp only [hs] at h
      exact swap_ok hK hR hg hs (fun w z hz => by simpa [fnVal, cosh_of_I] using hz) h
    | none =>
      simp only [hs] at h
      by_cases h0 : isInt 0 x = true
      · rw [if_pos h0] at h; cases h
        exact zero_fn1 h0 (.of_eval good_one (by simp [fnVal]))
      rw [if_neg h0] at h
      by_cases hn : isNegNum x = true
      · rw [if_pos hn] at h
        exact even_ok hK hR hg (fun v z hz => by simpa [fnVal] using hz) h
      rw [if_neg hn] at h
      refine finishHyp_ok hK hg (fun v w z hw hz => ?_) h
      simp only [fnVal, Option.some.injEq] at hw hz
      rw [← hz, ← hw, cosh_arccosh]

theorem sinhFn_ok {R : BuiltIn → Expr F → Res (Expr F)} (hK : Sound lic ρ K) (hR : SoundFn lic ρ R) {x r : Expr F} (hg : Good x)
    (h : sinhFn K R x = .ok r) : FnOk lic ρ r (fn1 ρ .sinh x) := by
  unfold sinhFn at h
  cases hs : swapArg K x with
  | error e => simp [hs] at h
  | ok o =>
    cases o with
    | some y =>
      simp only [hs] at h
      exact swapI_ok hK hR hg hs (fun w z hz => by simpa [fnVal, sinh_of_I] using hz) h
    | none =>
      simp only [hs] at h
      by_cases h0 : isInt 0 x = true
      · rw [if_pos h0] at h; cases h
        exact zero_fn1 h0 (.of_eval good_zero (by simp [fnVal]))
      rw [if_neg h0] at h
      by_cases hn : isNegNum x = true
      · rw [if_pos hn] at h
        exact odd_ok hK hR hg (fun v z hz => by simpa [fnVal] using hz) h
      rw [if_neg hn] at h
      refine finishHyp_ok hK hg (fun v w z hw hz => ?_) h
      simp only [fnVal, Option.some.injEq] at hw hz
      rw [← hz, ← hw, sinh_arcsinh]

theorem fnVal_tanh_neg (v z : ℂ) (hz : fnVal .tanh [v] = some z) : fnVal .tanh [-v] = some (-z) := by
  simp only [fnVal, cosh_neg, tanh_neg] at hz ⊢
  split_ifs at hz ⊢ with h
  simpa using hz

theorem tanhFn_ok {R : BuiltIn → Expr F → Res (Expr F)} (hK : Sound lic ρ K) (hR : SoundFn lic ρ R) {x r : Expr F} (hg : Good x)
    (h : tanhFn K R x = .ok r) : FnOk lic ρ r (fn1 ρ .tanh x) := by
  unfold tanhFn at h
  cases hs : swapArg K x with
  | error e => simp [hs] at h
  | ok o =>
    cases o with
    | some y =>
      simp only [hs] at h
      exact swapI_ok hK hR hg hs tanh_swap h
    | none =>
      simp only [hs] at h
      by_cases h0 : isInt 0 x = true
      · rw [if_pos h0] at h; cases h
        exact zero_fn1 h0 (.of_eval good_zero (by simp [fnVal]))
      rw [if_neg h0] at h
      by_cases hn : isNegNum x = true
      · rw [if_pos hn] at h
        exact odd_ok hK hR hg fnVal_tanh_neg h
      rw [if_neg hn] at h
      refine finishHyp_ok hK hg (fun v w z hw hz => ?_) h
      simp only [fnVal] at hw hz
      split_ifs at hw with h1
      simp only [Option.some.injEq] at hw
      subst hw
      split_ifs at hz
      simp only [Option.some.injEq] at hz
      rw [← hz, tanh_arctanh (fun e => h1 (Or.inl e)) (fun e => h1 (Or.inr e))]

theorem acoshFn_ok (hK : Sound lic ρ K) {x r : Expr F} (hg : Good x) (h : acoshFn K x = .ok r) : FnOk lic ρ r (fn1 ρ .arccosh x) := by
  unfold acoshFn at h
  by_cases h0 : isInt 0 x = true
  · rw [if_pos h0] at h
    cases hm : K.mul [.imag, .const .pi] with
    | error e => simp [hm] at h
    | ok m =>
      simp only [hm] at h
      refine zero_fn1 h0 ?_
      have h1 := mul2_ok hK imag_ok pi_ok hm
      have h2 := divE_ok hK (v := ((2 : Int) : ℂ)) (by norm_num) h1 (int_ok (inI64_small (by decide) (by decide))) h
      have e : fnVal .arccosh [0] = some (I * Real.pi * 2⁻¹) := by
        simp only [fnVal, zero_add, zero_sub, csqrt_one, csqrt_neg_one, one_mul, log_I, Option.some.injEq]; ring
      rw [e]
      simpa using h2
  rw [if_neg h0] at h
  exact finishFn_ok hK hg h

theorem asinhFn_ok (hK : Sound lic ρ K) {x r : Expr F} (hg : Good x) (h : asinhFn K x = .ok r) : FnOk lic ρ r (fn1 ρ .arcsinh x) := by
  unfold asinhFn at h
  by_cases h0 : isInt 0 x = true
  · rw [if_pos h0] at h; cases h
    exact zero_fn1 h0 (.of_eval good_zero (by simp [fnVal]))
  rw [if_neg h0] at h
  exact finishFn_ok hK hg h

theorem atanhFn_ok (hK : Sound lic ρ K) {x r : Expr F} (hg : Good x) (h : atanhFn K x = .ok r) : FnOk lic ρ r (fn1 ρ .arctanh x) := by
  unfold atanhFn at h
  by_cases h0 : isInt 0 x = true
  · rw [if_pos h0] at h; cases h
    exact zero_fn1 h0 (.of_eval good_zero (by simp [fnVal]))
  rw [if_neg h0] at h
  exact finishFn_ok hK hg h

theorem logFn_ok (hK : Sound lic ρ K) {x r : Expr F} (hg : Good x) (h : logFn K x = .ok r) : FnOk lic ρ r (fn1 ρ .log x) := by
  unfold logFn at h
  by_cases he : isConst .euler x = true
  · rw [if_pos he] at h; cases h
    apply FnOk.of_eval good_one
    rw [isConst_iff.1 he, fn1, eval_const]
    have : ((Real.exp 1 : ℝ) : ℂ) ≠ 0 := by exact_mod_cast (Real.exp_pos 1).ne'
    simp only [Option.bind_some, fnVal, SymConst.val, if_neg this, eval_int]
    rw [← ofReal_log (Real.exp_pos 1).le, Real.log_exp]; simp
  rw [if_neg he] at h
  by_cases h1 : isInt 1 x = true
  · rw [if_pos h1] at h; cases h
    exact one_fn1 h1 (.of_eval good_zero (by simp [fnVal]))
  rw [if_neg h1] at h
  by_cases h0 : isInt 0 x = true
  · rw [if_pos h0] at h; cases h
    exact zero_fn1 h0 (.none good_undef (by simp [fnVal]))
  rw [if_neg h0] at h
  exact finishFn_ok hK hg h

/-! ## Absolute value, sign and floor -/

theorem cneg_ok {a b : Int} (ha : InI64 a) (h : cneg a = .ok b) : b = -a ∧ InI64 b := by
  rw [C01_neg_exact_or_raises a ha, exactOrRaise] at h
  split_ifs at h with h1
  cases h; exact ⟨rfl, h1⟩

theorem abs_real (x : ℝ) : fnVal .abs [(x : ℂ)] = some ((|x| : ℝ) : ℂ) := by simp [fnVal]

theorem ratVal_real (q : ℚ) : ((q : ℚ) : ℂ) = ((q : ℝ) : ℂ) := by push_cast; rfl

theorem absRat_ok {x r : Expr F} {q : RatC} (hg : Good x) (hq : q.Canonical) (hx : eval ρ x = some ((q.val : ℚ) : ℂ)) (h : absRat x q = .ok r) :
    FnOk lic ρ r (fn1 ρ .abs x) := by
  have hd : (0 : ℚ) < q.d := by exact_mod_cast hq.2.2.1
  rw [fn1, hx, Option.bind_some, ratVal_real, abs_real]
  unfold absRat at h
  by_cases h0 : 0 ≤ q.n
  · rw [if_pos h0] at h; cases h
    apply FnOk.of_eval hg
    have : 0 ≤ q.val := div_nonneg (by exact_mod_cast h0) hd.le
    rw [hx, abs_of_nonneg (by exact_mod_cast this)]; push_cast; rfl
  rw [if_neg h0] at h
  cases hn : cneg q.n with
  | error e => simp [hn] at h
  | ok n =>
    simp only [hn] at h
    obtain ⟨rfl, hnf⟩ := cneg_ok hq.1 hn
    cases hm : ratMk (-q.n) q.d with
    | error e => simp [hm] at h
    | ok s =>
      simp only [hm] at h
      rw [ratMk_total _ _ hnf hq.2.1 hq.2.2.1.ne'] at hm
      split_ifs at hm with hu
      cases hm
      have hc := (ratMk_spec (-q.n) q.d hnf hq.2.1 (by tauto) (by tauto) hq.2.2.1.ne').2
      obtain ⟨_, hgr, hv, _⟩ := ratExpr_ok hc h
      apply FnOk.of_eval hgr
      have hneg : q.val ≤ 0 := div_nonpos_of_nonpos_of_nonneg (by exact_mod_cast (not_le.1 h0).le) hd.le
      rw [hv, canon_val, abs_of_nonpos (by exact_mod_cast hneg)]
      simp only [RatC.val]
      push_cast
      rw [neg_div]

theorem abs_idem (v w : ℂ) (h : fnVal .abs [v] = some w) : fnVal .abs [w] = some w := by
  simp only [fnVal, Option.some.injEq] at h ⊢
  rw [← h, norm_real, norm_norm]

theorem SymConst.val_pos (c : SymConst) : 0 < c.val := by cases c <;> simp [SymConst.val, Real.pi_pos, Real.exp_pos]

/-- A function applied to its own result does nothing. -/
theorem idem_ok {f : BuiltIn} {as : List (Expr F)} (hg : Good (.fn f as)) (hf : ∀ vs w, fnVal f vs = some w → fnVal f [w] = some w) :
    FnOk lic ρ (.fn f as) (fn1 ρ f (.fn f as)) := by
  refine ⟨hg, fun _ z hz => ?_⟩
  rw [fn1, eval_fn] at hz
  rw [eval_fn]
  cases hs : seqO (as.map (eval ρ)) with
  | none => simp [hs] at hz
  | some vs =>
    simp only [hs, Option.bind_some] at hz ⊢
    cases hw : fnVal f vs with
    | none => simp [hw] at hz
    | some w =>
      simp only [hw, Option.bind_some] at hz
      rw [hf vs w hw] at hz
      exact hz

theorem absFn_ok (hK : Sound lic ρ K) {x r : Expr F} (hg : Good x) (h : absFn K x = .ok r) : FnOk lic ρ r (fn1 ρ .abs x) := by
  unfold absFn at h
  split at h
  · cases h
    refine idem_ok hg (fun vs w hw => ?_)
    match vs, hw with
    | [v], hw => exact abs_idem v w hw
  · cases ht : tryRat x with
    | some q =>
      simp only [ht] at h
      obtain ⟨hq, hv⟩ := tryRat_ok (ρ := ρ) hg ht
      exact absRat_ok hg hq hv h
    | none =>
      simp only [ht] at h
      cases hc : complexCast x with
      | some c => simp only [hc] at h; exact floatFn_ok hK hg hc h
      | none =>
        simp only [hc] at h
        split at h
        · rename_i c _
          cases h
          apply FnOk.of_eval hg
          rw [fn1, eval_const, Option.bind_some, abs_real, abs_of_pos c.val_pos]
        · by_cases hu : (isZoo x || isUndef x) = true
          · rw [if_pos hu] at h; cases h; exact undef_ok good_undef hu
          · rw [if_neg hu] at h; cases h; exact node_ok hg

theorem signum_real (x : ℝ) : fnVal .signum [(x : ℂ)] = some (if 0 < x then 1 else if x < 0 then -1 else 0) := by
  simp only [fnVal]
  rcases lt_trichotomy x 0 with h | h | h
  · have h0 : (x : ℂ) ≠ 0 := by exact_mod_cast h.ne
    rw [if_neg h0, if_neg (not_lt.2 h.le), if_pos h, norm_real, Real.norm_of_nonpos h.le]
    push_cast
    rw [div_neg, div_self h0]
  · subst h; simp
  · have h0 : (x : ℂ) ≠ 0 := by exact_mod_cast h.ne'
    rw [if_neg h0, if_pos h, norm_real, Real.norm_of_nonneg h.le, div_self h0]

theorem signum_idem (v w : ℂ) (h : fnVal .signum [v] = some w) : fnVal .signum [w] = some w := by
  simp only [fnVal] at h ⊢
  split_ifs at h with h0
  · simp only [Option.some.injEq] at h; subst h; simp
  · simp only [Option.some.injEq] at h; subst h
    have hn := norm_signum h0
    have : v / (‖v‖ : ℂ) ≠ 0 := by intro e; rw [e] at hn; simp at hn
    rw [if_neg this, hn]; simp

theorem signInt_ok (n : Int) : InI64 (signInt n) ∧ ∀ x : ℝ, ((0 : ℝ) < x ↔ 0 < n) → (x < 0 ↔ n < 0) →
    fnVal .signum [(x : ℂ)] = some ((signInt n : ℤ) : ℂ) := by
  unfold signInt
  refine ⟨?_, fun x h1 h2 => ?_⟩
  · split_ifs <;> exact inI64_small (by decide) (by decide)
  · rw [signum_real]
    simp only [h1, h2]
    split_ifs <;> simp

theorem signumFn_ok {x r : Expr F} (hg : Good x) (h : signumFn x = .ok r) : FnOk lic ρ r (fn1 ρ .signum x) := by
  unfold signumFn at h
  split at h
  · rename_i n
    cases h
    apply FnOk.of_eval (good_int.2 (signInt_ok n).1)
    rw [fn1, eval_int, eval_int, Option.bind_some, show ((n : ℤ) : ℂ) = ((n : ℝ) : ℂ) by push_cast; rfl,
      (signInt_ok n).2 n (by exact_mod_cast Iff.rfl) (by exact_mod_cast Iff.rfl)]
  · rename_i q
    cases h
    apply FnOk.of_eval (good_int.2 (signInt_ok q.n).1)
    have hq := (good_rat.1 hg).1
    have hd : (0 : ℚ) < q.d := by exact_mod_cast hq.2.2.1
    rw [fn1, eval_rat, eval_int, Option.bind_some, ratVal_real, (signInt_ok q.n).2 _ ?_ ?_]
    · rw [show ((0 : ℝ) < (q.val : ℝ)) ↔ (0 : ℚ) < q.val by exact_mod_cast Iff.rfl]
      simp only [RatC.val]
      rw [div_pos_iff_of_pos_right hd]; exact_mod_cast Iff.rfl
    · rw [show ((q.val : ℝ) < 0) ↔ q.val < (0 : ℚ) by exact_mod_cast Iff.rfl]
      simp only [RatC.val]
      rw [div_lt_iff₀ hd, zero_mul]; exact_mod_cast Iff.rfl
  · rename_i f
    by_cases hn : FloatOps.isNan f = true
    · rw [if_pos hn] at h; cases h; exact node_ok hg
    · rw [if_neg hn] at h; cases h
      have hi : InI64 (signFlt f) := by unfold signFlt; split_ifs <;> exact inI64_small (by decide) (by decide)
      refine ⟨good_int.2 hi, fun _ z hz => ?_⟩
      rw [fn1, eval_flt] at hz
      cases hv : FloatSem.val f with
      | none => simp [hv] at hz
      | some y =>
        simp only [hv, Option.map_some, Option.bind_some] at hz
        rw [signum_real] at hz
        have h0 : FloatSem.val (FloatOps.ofInt 0 : F) = some 0 := by
          rw [FloatSem.val_ofInt 0 (inI64_small (by decide) (by decide))]; simp
        have hp : fltIsPos f = true ↔ 0 < y := FloatSem.lt_iff _ _ _ _ h0 hv
        have hm : fltIsNeg f = true ↔ y < 0 := FloatSem.lt_iff _ _ _ _ hv h0
        rw [eval_int, ← hz]
        unfold signFlt
        simp only [hp, hm]
        split_ifs <;> simp
  · rename_i c
    cases h
    apply FnOk.of_eval good_one
    rw [fn1, eval_const, Option.bind_some, signum_real, if_pos c.val_pos]; simp
  · cases h
    refine idem_ok hg (fun vs w hw => ?_)
    match vs, hw with
    | [v], hw => exact signum_idem v w hw
  · cases h
    exact .none good_undef (by simp [fn1])
  · cases h
    exact node_ok hg

theorem floor_real (x : ℝ) : fnVal .floor [(x : ℂ)] = some ((⌊x⌋ : ℤ) : ℂ) := by
  simp only [fnVal, Option.some.injEq]
  apply Complex.ext <;> simp

theorem floor_idem (v w : ℂ) (h : fnVal .floor [v] = some w) : fnVal .floor [w] = some w := by
  simp only [fnVal, Option.some.injEq] at h ⊢
  subst h
  simp

theorem SymConst.floor_val (c : SymConst) : ⌊c.val⌋ = c.floor := by
  cases c
  · show ⌊Real.exp 1⌋ = 2
    rw [Int.floor_eq_iff]
    have := Real.exp_one_gt_d9
    have := Real.exp_one_lt_d9
    constructor <;> push_cast <;> linarith
  · show ⌊Real.pi⌋ = 3
    rw [Int.floor_eq_iff]
    have := Real.pi_gt_three
    have := Real.pi_lt_four
    constructor <;> push_cast <;> linarith

theorem floorRat_ok {q : RatC} (hq : q.Canonical) (hd : q.d ≠ 1) {p : Int × RatC} (h : ratNormalized q = .ok p) :
    InI64 (if ratIsNegative q then p.1 - 1 else p.1) ∧ ⌊(q.val : ℝ)⌋ = if ratIsNegative q then p.1 - 1 else p.1 := by
  obtain ⟨i, f, hn, hf, hv, hlt, hpos, hneg⟩ := C05_normalized q hq
  have hi : i = q.n.tdiv q.d := by
    have := (ratNormalized_spec q hq).1
    rw [hn] at this
    simp only [Except.ok.injEq, Prod.mk.injEq] at this
    exact this.1
  rw [hn] at h
  cases h
  have hdp := hq.2.2.1
  have hd2 : 2 ≤ q.d := by omega
  have hdq : (0 : ℚ) < q.d := by exact_mod_cast hdp
  have hns : ratIsNegative q = true ↔ q.val < 0 := by
    simp only [ratIsNegative, decide_eq_true_eq, RatC.val]
    rw [div_lt_iff₀ hdq, zero_mul]; exact_mod_cast Iff.rfl
  have hf0 : f.val ≠ 0 := by
    intro h0
    rw [h0, add_zero] at hv
    apply hd
    have hqe : q = ratOfInt i := hq.ext (canonical_ofInt (by rw [hi]; exact tdiv_fits_pos hq.1 hdp)) (by rw [hv, ratOfInt_val])
    rw [hqe]; rfl
  have hb : InI64 (i - 1) ∧ InI64 i := by
    have h1 := hq.1
    rw [InI64_iff] at h1
    rw [InI64_iff, InI64_iff]
    have h2 := Int.mul_tdiv_add_tmod q.n q.d
    have h3 : (q.n.tmod q.d).natAbs < q.d.natAbs := by rw [Int.natAbs_tmod]; exact Nat.mod_lt _ (by omega)
    rw [← hi] at h2
    have h4 : -q.d < q.n.tmod q.d ∧ q.n.tmod q.d < q.d := by omega
    have h5 : -4611686018427387905 ≤ i := by
      by_contra hc
      nlinarith [mul_le_mul_of_nonneg_left (show i ≤ -4611686018427387906 by omega) hdp.le]
    have h6 : i ≤ 4611686018427387905 := by
      by_contra hc
      nlinarith [mul_le_mul_of_nonneg_left (show 4611686018427387906 ≤ i by omega) hdp.le]
    omega
  refine ⟨by split_ifs <;> [exact hb.1; exact hb.2], ?_⟩
  rw [Int.floor_eq_iff]
  have habs := abs_lt.1 hlt
  by_cases hs : ratIsNegative q = true
  · rw [if_pos hs]
    have hfneg : f.val < 0 := lt_of_le_of_ne (hneg (hns.1 hs).le) hf0
    have e1 : (((i - 1 : ℤ) : ℚ)) ≤ q.val := by push_cast; linarith
    have e2 : q.val < ((i - 1 : ℤ) : ℚ) + 1 := by push_cast; linarith
    exact ⟨by exact_mod_cast e1, by exact_mod_cast e2⟩
  · rw [if_neg hs]
    have hfp : 0 ≤ f.val := hpos (not_lt.1 (fun h => hs (hns.2 h)))
    have e1 : ((i : ℤ) : ℚ) ≤ q.val := by linarith
    have e2 : q.val < ((i : ℤ) : ℚ) + 1 := by linarith
    exact ⟨by exact_mod_cast e1, by exact_mod_cast e2⟩

theorem floorFn_ok {x r : Expr F} (hg : Good x) (h : floorFn x = .ok r) : FnOk lic ρ r (fn1 ρ .floor x) := by
  unfold floorFn at h
  split at h
  · rename_i n
    cases h
    apply FnOk.of_eval hg
    rw [fn1, eval_int, Option.bind_some, show ((n : ℤ) : ℂ) = ((n : ℝ) : ℂ) by push_cast; rfl, floor_real]; simp
  · rename_i q
    cases hn : ratNormalized q with
    | error e => simp [hn] at h
    | ok p =>
      simp only [hn] at h
      cases h
      obtain ⟨h1, h2⟩ := floorRat_ok (good_rat.1 hg).1 (good_rat.1 hg).2 hn
      apply FnOk.of_eval (good_int.2 h1)
      rw [fn1, eval_rat, Option.bind_some, ratVal_real, floor_real, h2, eval_int]
  · rename_i f
    by_cases hn : FloatOps.isNan f = true
    · rw [if_pos hn] at h; cases h; exact node_ok hg
    · rw [if_neg hn] at h
      cases hv : FloatSem.val f with
      | none =>
        cases hf : FnOps.floorI64 f with
        | error e => simp [hf] at h
        | ok n =>
          simp only [hf] at h
          cases h
          refine ⟨good_int.2 (FnSem.floor_fits f n hf), fun _ z hz => ?_⟩
          rw [fn1, eval_flt, hv] at hz
          simp at hz
      | some y =>
        have hfv : FnOps.floorI64 f = if InI64 ⌊y⌋ then .ok ⌊y⌋ else .error .ub := FnSem.floor_val f y hv
        rw [hfv] at h
        by_cases hi : InI64 ⌊y⌋
        · rw [if_pos hi] at h
          cases h
          apply FnOk.of_eval (good_int.2 hi)
          rw [fn1, eval_flt, hv, Option.map_some, Option.bind_some, floor_real, eval_int]
        · rw [if_neg hi] at h; cases h
  · cases h
    refine idem_ok hg (fun vs w hw => ?_)
    match vs, hw with
    | [v], hw => exact floor_idem v w hw
  · rename_i c
    cases h
    apply FnOk.of_eval (good_int.2 (by cases c <;> exact inI64_small (by decide) (by decide)))
    rw [fn1, eval_const, Option.bind_some, floor_real, c.floor_val, eval_int]
  · cases h
    exact .none good_zoo (by simp [fn1])
  · cases h
    exact .none good_undef (by simp [fn1])
  · cases h
    exact node_ok hg

/-! ## All functions of one argument -/

theorem fnStep_ok {R : BuiltIn → Expr F → Res (Expr F)} (hK : Sound lic ρ K) (hR : SoundFn lic ρ R) : SoundFn lic ρ (fnStep K R) := by
  intro f x r hg h
  cases f <;> rw [fnStep] at h
  case cos => exact cosFn_ok hK hR hg h
  case sin => exact sinFn_ok hK hR hg h
  case tan => exact tanFn_ok hK hR hg h
  case arccos => exact acosFn_ok hK hg h
  case arcsin => exact asinFn_ok hK hR hg h
  case arctan => exact atanFn_ok hK hR hg h
  case cosh => exact coshFn_ok hK hR hg h
  case sinh => exact sinhFn_ok hK hR hg h
  case tanh => exact tanhFn_ok hK hR hg h
  case arccosh => exact acoshFn_ok hK hg h
  case arcsinh => exact asinhFn_ok hK hg h
  case arctanh => exact atanhFn_ok hK hg h
  case log => exact logFn_ok hK hg h
  case abs => exact absFn_ok hK hg h
  case signum => exact signumFn_ok hg h
  case floor => exact floorFn_ok hg h
  case arctan2 => cases h
  case exp =>
    obtain ⟨h1, h2⟩ := expFn_ok hK hg h
    refine ⟨h1, fun ht z hz => ?_⟩
    cases hx : eval ρ x with
    | none => simp [fn1, hx] at hz
    | some v =>
      simp only [fn1, hx, Option.bind_some, fnVal, Option.some.injEq] at hz
      rw [h2 ht v hx, hz]

theorem fns_ok (hK : Sound lic ρ K) : ∀ n, SoundFn lic ρ (fns K n)
  | 0 => fun _ _ _ _ h => by cases h
  | n + 1 => fnStep_ok hK (fns_ok hK n)

/-! ## `atan2` -/

/-- The value of `atan2`. -/
noncomputable def atan2Val (ρ : Env F) (y x : Expr F) : Option ℂ := (eval ρ y).bind fun a => (eval ρ x).bind fun b => fnVal .arctan2 [a, b]

theorem eval_arctan2 (y x : Expr F) : eval ρ (.fn .arctan2 [y, x]) = atan2Val ρ y x := by
  rw [eval_fn, atan2Val]
  cases h : eval ρ y with
  | none => simp [seqO, h]
  | some a =>
    cases h2 : eval ρ x with
    | none => simp [seqO, h, h2]
    | some b => simp [seqO, h, h2]

theorem atan2_int (y x : Int) : atan2Val ρ (.int y) (.int x) = if x = 0 ∧ y = 0 then none else some ((arg ⟨x, y⟩ : ℝ) : ℂ) := by
  simp only [atan2Val, eval_int, Option.bind_some, fnVal]
  by_cases h : x = 0 ∧ y = 0
  · simp [h.1, h.2]
  · have : ¬ ((x : ℂ) = 0 ∧ (y : ℂ) = 0) := by simpa using h
    simp [h]

theorem arg_diag (x y : Int) (h0 : x ≠ 0) (h : |y| = |x|) : arg ⟨x, y⟩ =
    if y < 0 then (if x < 0 then -(3 * Real.pi / 4) else -(Real.pi / 4)) else (if x < 0 then 3 * Real.pi / 4 else Real.pi / 4) := by
  have hne : arg (1 + I) ≠ Real.pi := by rw [arg_one_I]; linarith [Real.pi_pos]
  have hc : arg (1 - I) = -(Real.pi / 4) := by
    have : (1 - I : ℂ) = (starRingEnd ℂ) (1 + I) := by simp [sub_eq_add_neg]
    rw [this, arg_conj, if_neg hne, arg_one_I]
  have hm : arg (-(1 - I)) = 3 * Real.pi / 4 := by
    rw [arg_neg_eq_arg_add_pi_of_im_neg (by simp), hc]; ring
  have hmm : arg (-(1 + I)) = -(3 * Real.pi / 4) := by
    rw [arg_neg_eq_arg_sub_pi_of_im_pos (by simp), arg_one_I]; ring
  rcases abs_eq_abs.1 h with rfl | rfl
  · rcases lt_or_gt_of_ne h0 with hx | hx
    · have e : (⟨(y : ℝ), (y : ℝ)⟩ : ℂ) = ((-y : ℝ) : ℂ) * (-(1 + I)) := by apply Complex.ext <;> simp
      have : (0 : ℝ) < -(y : ℝ) := by simpa using hx
      rw [e, arg_real_mul _ this, hmm, if_pos hx, if_pos hx]
    · have e : (⟨(y : ℝ), (y : ℝ)⟩ : ℂ) = ((y : ℝ) : ℂ) * (1 + I) := by apply Complex.ext <;> simp
      have : (0 : ℝ) < (y : ℝ) := by exact_mod_cast hx
      rw [e, arg_real_mul _ this, arg_one_I, if_neg (by omega), if_neg (by omega)]
  · rcases lt_or_gt_of_ne h0 with hx | hx
    · have e : (⟨(x : ℝ), ((-x : ℤ) : ℝ)⟩ : ℂ) = ((-x : ℝ) : ℂ) * (-(1 - I)) := by apply Complex.ext <;> simp
      have : (0 : ℝ) < -(x : ℝ) := by simpa using hx
      rw [e, arg_real_mul _ this, hm, if_neg (by omega), if_pos hx]
    · have e : (⟨(x : ℝ), ((-x : ℤ) : ℝ)⟩ : ℂ) = ((x : ℝ) : ℂ) * (1 - I) := by apply Complex.ext <;> simp
      have : (0 : ℝ) < (x : ℝ) := by exact_mod_cast hx
      rw [e, arg_real_mul _ this, hc, if_pos (by omega), if_neg (by omega)]

theorem cabs_ok {a b : Int} (ha : InI64 a) (h : cabs a = .ok b) : b = |a| := by
  unfold cabs at h
  by_cases h0 : a < 0
  · rw [if_pos h0] at h
    rw [(cneg_ok ha h).1, abs_of_neg h0]
  · rw [if_neg h0] at h
    cases h
    rw [abs_of_nonneg (by omega)]

theorem quadrant_ok (hK : Sound lic ρ K) {b c : Bool} {r : Expr F} (h : quadrant K b c = .ok r) :
    FnOk lic ρ r (some (((if b then (if c then -(3 * Real.pi / 4) else -(Real.pi / 4)) else (if c then 3 * Real.pi / 4 else Real.pi / 4) : ℝ)) : ℂ)) := by
  have h4 : FnOk lic ρ (.int 4) (some ((4 : Int) : ℂ)) := int_ok (inI64_small (by decide) (by decide))
  have h40 : ((4 : Int) : ℂ) ≠ 0 := by norm_num
  unfold quadrant at h
  cases b <;> cases c
  · have := piOver_ok hK (inI64_small (by decide) (by decide)) (by decide) h
    simpa using this
  · dsimp only at h
    cases hm : K.mul [.int 3, .const .pi] with
    | error e => simp [hm] at h
    | ok m =>
      simp only [hm] at h
      have := divE_ok hK h40 (mul2_ok hK (int_ok (inI64_small (by decide) (by decide))) pi_ok hm) h4 h
      simpa [div_eq_mul_inv] using this
  · dsimp only at h
    cases hm : negE K (.const .pi) with
    | error e => simp [hm] at h
    | ok m =>
      simp only [hm] at h
      have := divE_ok hK h40 (negE_ok hK pi_ok hm) h4 h
      simpa [div_eq_mul_inv] using this
  · dsimp only at h
    cases hm : K.mul [.int (-3), .const .pi] with
    | error e => simp [hm] at h
    | ok m =>
      simp only [hm] at h
      have := divE_ok hK h40 (mul2_ok hK (int_ok (inI64_small (by decide) (by decide))) pi_ok hm) h4 h
      simpa [div_eq_mul_inv] using this

theorem atan2Int_ok (hK : Sound lic ρ K) {y x : Int} {r : Expr F} (hy : InI64 y) (hx : InI64 x) (h : atan2Int K y x = .ok (some r)) :
    FnOk lic ρ r (atan2Val ρ (.int y) (.int x)) := by
  have a1 : arg ⟨0, 1⟩ = Real.pi / 2 := arg_I
  have a2 : arg ⟨0, -1⟩ = -(Real.pi / 2) := by
    have : (⟨0, -1⟩ : ℂ) = -I := by apply Complex.ext <;> simp
    rw [this, arg_neg_I]; 
  have a3 : arg ⟨-1, 0⟩ = Real.pi := by
    have : (⟨-1, 0⟩ : ℂ) = -1 := by apply Complex.ext <;> simp
    rw [this, arg_neg_one]
  have a4 : arg ⟨1, 0⟩ = 0 := by
    have : (⟨1, 0⟩ : ℂ) = 1 := by apply Complex.ext <;> simp
    rw [this, arg_one]
  have hs : ∀ n : Int, -4 ≤ n → n ≤ 4 → InI64 n := fun n => inI64_small
  rw [atan2_int]
  unfold atan2Int at h
  by_cases h1 : y = 0 ∧ x = 1
  · rw [if_pos h1] at h; cases h
    obtain ⟨rfl, rfl⟩ := h1
    exact .of_eval good_zero (by simp [a4])
  rw [if_neg h1] at h
  by_cases h2 : y = 1 ∧ x = 0
  · rw [if_pos h2] at h
    cases hp : piOver K 2 with
    | error e => simp [hp] at h
    | ok s =>
      simp only [hp] at h
      cases h
      obtain ⟨rfl, rfl⟩ := h2
      have := piOver_ok hK (hs 2 (by decide) (by decide)) (by decide) hp
      simpa [a1] using this
  rw [if_neg h2] at h
  by_cases h3 : y = 0 ∧ x = -1
  · rw [if_pos h3] at h; cases h
    obtain ⟨rfl, rfl⟩ := h3
    exact .of_eval (good_const _) (by simp [a3, SymConst.val])
  rw [if_neg h3] at h
  by_cases h4 : y = -1 ∧ x = 0
  · rw [if_pos h4] at h
    cases hp : timesCall K (.int (-1)) (piOver K 2) with
    | error e => simp [hp] at h
    | ok s =>
      simp only [hp] at h
      cases h
      obtain ⟨rfl, rfl⟩ := h4
      have := timesCall_ok hK negOne_ok (fun y hy => piOver_ok hK (hs 2 (by decide) (by decide)) (by decide) hy) hp
      simpa [a2] using this
  rw [if_neg h4] at h
  cases ha : cabs y with
  | error e => simp [ha] at h
  | ok a =>
    simp only [ha] at h
    cases hb : cabs x with
    | error e => simp [hb] at h
    | ok b =>
      simp only [hb] at h
      by_cases h5 : a = b ∧ x ≠ 0
      · rw [if_pos h5] at h
        cases hq : quadrant K (decide (y < 0)) (decide (x < 0)) with
        | error e => simp [hq] at h
        | ok s =>
          simp only [hq] at h
          cases h
          have hd := arg_diag x y h5.2 (by rw [← cabs_ok hy ha, ← cabs_ok hx hb, h5.1])
          rw [if_neg (fun e => h5.2 e.1), hd]
          have := quadrant_ok hK hq
          simpa using this
      · rw [if_neg h5] at h; cases h

theorem atan2Fn_ok (hK : Sound lic ρ K) {y x r : Expr F} (hy : Good y) (hx : Good x) (h : atan2Fn K y x = .ok r) :
    FnOk lic ρ r (atan2Val ρ y x) := by
  unfold atan2Fn at h
  cases hs : atan2Simplify K y x with
  | error e => simp [hs] at h
  | ok o =>
    cases o with
    | none =>
      simp only [hs] at h
      cases h
      exact .of_eval (good_fn.2 (by simpa using ⟨hy, hx⟩)) (eval_arctan2 y x)
    | some s =>
      simp only [hs] at h
      cases h
      unfold atan2Simplify at hs
      by_cases hu : (isZoo y || isZoo x || isUndef y || isUndef x) = true
      · rw [if_pos hu] at hs
        cases hs
        apply FnOk.none good_undef
        simp only [Bool.or_eq_true] at hu
        rcases hu with ((hu | hu) | hu) | hu
        · rw [isZoo_iff.1 hu]; simp [atan2Val]
        · rw [isZoo_iff.1 hu]; cases h : eval ρ y <;> simp [atan2Val, h]
        · rw [isUndef_iff.1 hu]; simp [atan2Val]
        · rw [isUndef_iff.1 hu]; cases h : eval ρ y <;> simp [atan2Val, h]
      · rw [if_neg hu] at hs
        split at hs
        · rename_i a b
          cases hs
          refine ⟨floatExpr_good _, fun _ z hz => ?_⟩
          cases ha : FloatSem.val a with
          | none => simp [atan2Val, eval_flt, ha] at hz
          | some u =>
            cases hb : FloatSem.val b with
            | none => simp [atan2Val, eval_flt, ha, hb] at hz
            | some v =>
              have hv : FloatSem.val (FnOps.atan2 a b) = some (arg ⟨v, u⟩) := FnSem.val_atan2 a b u v ha hb
              rw [floatExpr_val hv]
              simp only [atan2Val, eval_flt, ha, hb, Option.map_some, Option.bind_some, fnVal] at hz
              split_ifs at hz
              simpa using hz
        · rename_i a b
          exact atan2Int_ok hK (good_int.1 hy) (good_int.1 hx) hs
        · cases hs
end

end Wf.Sym
