import Verif.Sym.PowLemmas

/-! # Powers and products keep the value; all constructors together -/

namespace Wf.Sym
open Complex

variable {F : Type} [DecidableEq F] [FloatSem F]

/-! ### Exponentials and complex floats -/

theorem complexCast_ok (ρ : Env F) {x : Expr F} {c : F × F} (hg : Good x) (h : complexCast x = some c) :
    ∀ z, eval ρ x = some z → FloatSem.val c.1 = some z.re ∧ FloatSem.val c.2 = some z.im := by
  have hz0 : FloatSem.val (FloatOps.ofInt 0 : F) = some 0 := by
    rw [FloatSem.val_ofInt 0 (inI64_small (by decide) (by decide))]; simp
  have hz1 : FloatSem.val (FloatOps.ofInt 1 : F) = some 1 := by
    rw [FloatSem.val_ofInt 1 (inI64_small (by decide) (by decide))]; simp
  fun_induction complexCast x generalizing c with
  | case1 f =>
    cases h
    intro z hz
    rw [eval_flt] at hz
    obtain ⟨x, hx, rfl⟩ := flt_some hz
    exact ⟨by simpa using hx, by simpa using hz0⟩
  | case2 =>
    cases h
    intro z hz
    rw [eval_imag] at hz
    cases hz
    exact ⟨by simpa using hz0, by simpa using hz1⟩
  | case3 a b f m he hi =>
    obtain ⟨_, _, _, _, hv⟩ := asCoeffMul_mul hg
    have hv := hv ρ
    rw [he] at hv
    cases h
    intro z hz
    have hv : mulO (eval ρ (.flt f)) (eval ρ m) = some z := hv.trans hz
    rw [eval_flt, mulO_eq_some] at hv
    obtain ⟨u, v, hu, hv', rfl⟩ := hv
    obtain ⟨x, hx, rfl⟩ := flt_some hu
    have : m = .imag := isImag_iff.1 hi
    rw [this, eval_imag] at hv'
    cases hv'
    exact ⟨by simpa using hz0, by simpa using hx⟩
  | case4 => simp at h
  | case5 a b n m he hi =>
    obtain ⟨hgn, _, _, _, hv⟩ := asCoeffMul_mul hg
    have hv := hv ρ
    rw [he] at hv hgn
    cases h
    intro z hz
    have hv : mulO (eval ρ (.int n)) (eval ρ m) = some z := hv.trans hz
    rw [eval_int, mulO_eq_some] at hv
    obtain ⟨u, v, hu, hv', rfl⟩ := hv
    have : m = .imag := isImag_iff.1 hi
    rw [this, eval_imag] at hv'
    cases hv'
    cases hu
    exact ⟨by simpa using hz0, by simpa using FloatSem.val_ofInt n (good_int.1 hgn)⟩
  | case6 => simp at h
  | case7 => simp at h
  | case8 a b x y ha u v hb iha ihb =>
    cases h
    intro z hz
    have hg' := good_add.1 hg
    have hz : eval ρ (.add [a, b]) = some z := hz
    rw [eval_add, List.map_cons, sumO_cons_some] at hz
    obtain ⟨p, q, hp, hq, rfl⟩ := hz
    rw [List.map_cons, List.map_nil, sumO_cons, sumO_nil, addO_zero] at hq
    obtain ⟨h1, h2⟩ := iha (hg' a (by simp)) (by assumption) p hp
    obtain ⟨h3, h4⟩ := ihb (hg' b (by simp)) (by assumption) q hq
    exact ⟨FloatSem.val_add _ _ _ _ h1 h3, FloatSem.val_add _ _ _ _ h2 h4⟩
  | case9 => simp at h
  | case10 => simp at h

theorem fromComplex_ok {lic : Lic F} {ρ : Env F} {K : Ctors F} (hK : Sound lic ρ K) {c : F × F} {r : Expr F} (h : fromComplex K c = .ok r) :
    Good r ∧ (lic.TrueAt ρ → ∀ z : ℂ, FloatSem.val c.1 = some z.re → FloatSem.val c.2 = some z.im → eval ρ r = some z) := by
  unfold fromComplex at h
  by_cases h0 : fltIsZero c.2 = true
  · rw [if_pos h0] at h
    simp only [Except.ok.injEq] at h
    subst h
    refine ⟨floatExpr_good _, fun _ z h1 h2 => ?_⟩
    have him := fltIsZero_val h0 h2
    rw [floatExpr_val h1]
    congr 1
    apply Complex.ext <;> simp [him]
  · rw [if_neg h0] at h
    cases hm : K.mul [floatExpr c.2, .imag] with
    | error e => rw [hm] at h; simp at h
    | ok m =>
      rw [hm] at h
      obtain ⟨hgm, hvm⟩ := hK.mul _ _ (by simp [floatExpr_good, good_imag]) hm
      obtain ⟨hgr, hvr⟩ := hK.add _ _ (by simp [floatExpr_good, hgm]) h
      refine ⟨hgr, fun hl z h1 h2 => hvr hl z ?_⟩
      have h3 := hvm hl ((z.im : ℂ) * I) (by
        simp only [List.map_cons, List.map_nil, prodO_cons, prodO_nil, mulO_one, eval_imag]
        rw [floatExpr_val h2, mulO_some])
      simp only [List.map_cons, List.map_nil, sumO_cons, sumO_nil, addO_zero]
      rw [h3, floatExpr_val h1, addO_some, re_add_im]

theorem expFn_ok {lic : Lic F} {ρ : Env F} {K : Ctors F} (hK : Sound lic ρ K) {x r : Expr F} (hg : Good x) (h : expFn K x = .ok r) :
    Good r ∧ (lic.TrueAt ρ → ∀ z, eval ρ x = some z → eval ρ r = some (exp z)) := by
  unfold expFn at h
  by_cases h0 : isInt 0 x = true
  · rw [if_pos h0] at h
    simp only [Except.ok.injEq] at h
    subst h
    refine ⟨good_one, fun _ z hz => ?_⟩
    rw [isInt_iff.1 h0, eval_int] at hz
    cases hz
    simp
  rw [if_neg h0] at h
  by_cases h1 : isInt 1 x = true
  · rw [if_pos h1] at h
    simp only [Except.ok.injEq] at h
    subst h
    refine ⟨good_const _, fun _ z hz => ?_⟩
    rw [isInt_iff.1 h1, eval_int] at hz
    cases hz
    simp [SymConst.val]
  rw [if_neg h1] at h
  by_cases h2 : (isZoo x || isUndef x) = true
  · rw [if_pos h2] at h
    simp only [Except.ok.injEq] at h
    subst h
    refine ⟨good_undef, fun _ z hz => ?_⟩
    rw [Bool.or_eq_true] at h2
    rcases h2 with h2 | h2
    · rw [isZoo_iff.1 h2, eval_zoo] at hz; cases hz
    · rw [isUndef_iff.1 h2, eval_undef] at hz; cases hz
  rw [if_neg h2] at h
  cases hc : complexCast x with
  | none =>
    rw [hc] at h
    simp only [Except.ok.injEq] at h
    subst h
    exact ⟨good_fn.2 (by simp [hg]), fun _ z hz => by rw [eval_exp, hz]; rfl⟩
  | some c =>
    rw [hc] at h
    obtain ⟨hgr, hv⟩ := fromComplex_ok hK h
    refine ⟨hgr, fun hl z hz => ?_⟩
    obtain ⟨hre, him⟩ := complexCast_ok ρ hg hc z hz
    obtain ⟨h3, h4⟩ := FloatSem.val_complexFn .exp c.1 c.2 z.re z.im (exp z) hre him rfl
    exact hv hl (exp z) h3 h4

/-! ### Numeric powers -/

theorem powOperandExpr_ok (ρ : Env F) {o : PowOperand} {e : Expr F} (ho : o.Fine) (h : powOperandExpr o = .ok e) :
    Good e ∧ eval ρ e = some o.val := by
  cases o with
  | coeff r =>
    obtain ⟨_, hg, hv, _⟩ := ratExpr_ok ho h
    exact ⟨hg, hv ρ⟩
  | imag =>
    simp only [powOperandExpr, Except.ok.injEq] at h; subst h
    exact ⟨good_imag, eval_imag ρ⟩
  | pow b r =>
    unfold powOperandExpr at h
    cases hr : (ratExpr r : Res (Expr F)) with
    | error e => simp only [hr] at h; simp at h
    | ok x =>
      simp only [hr, Except.ok.injEq] at h; subst h
      obtain ⟨hb, hb0, hrc⟩ := ho
      obtain ⟨_, hg, hv, _⟩ := ratExpr_ok hrc hr
      refine ⟨good_pow.2 ⟨good_int.2 hb, hg⟩, ?_⟩
      rw [eval_pow, eval_int, hv ρ, powO_some, powVal_of_ne (by exact_mod_cast hb0)]; rfl

theorem powOperands_ok (ρ : Env F) {os : List PowOperand} {ts : List (Expr F)} (ho : ∀ o ∈ os, o.Fine)
    (h : List.Forall₂ (fun a b => powOperandExpr a = .ok b) os ts) :
    (∀ t ∈ ts, Good t) ∧ ts.map (eval ρ) = (os.map PowOperand.val).map some := by
  induction h with
  | nil => simp
  | cons hab _ ih =>
    obtain ⟨hg, hv⟩ := powOperandExpr_ok ρ (ho _ (by simp)) hab
    obtain ⟨hgs, hvs⟩ := ih (fun o h => ho o (by simp [h]))
    exact ⟨by simpa [hg] using hgs, by simp [hv, hvs]⟩

/-- The outcome of a numeric power rule, for the value `z` of the power. -/
def NumPow.FineAt (x : NumPow) (z : Option ℂ) : Prop :=
  match x with
  | .num r => r.Canonical ∧ ∀ v, z = some v → ((r.val : ℚ) : ℂ) = v
  | .prod ops => (∀ o ∈ ops, o.Fine) ∧ ∀ v, z = some v → (ops.map PowOperand.val).prod = v
  | _ => z = none

theorem numPowExpr_ok {lic : Lic F} {ρ : Env F} {K : Ctors F} (hK : Sound lic ρ K) {x : NumPow} {z : Option ℂ} {r : Expr F} (hx : NumPow.FineAt x z)
    (h : numPowExpr K x = .ok r) : Good r ∧ (lic.TrueAt ρ → ∀ v, z = some v → eval ρ r = some v) := by
  cases x with
  | num q =>
    obtain ⟨_, hg, hv, _⟩ := ratExpr_ok hx.1 h
    exact ⟨hg, fun _ v hz => by rw [hv ρ, hx.2 v hz]⟩
  | zoo =>
    simp only [numPowExpr, Except.ok.injEq] at h; subst h
    refine ⟨good_zoo, fun _ v hz => ?_⟩
    have : z = none := hx
    rw [this] at hz; cases hz
  | undef =>
    simp only [numPowExpr, Except.ok.injEq] at h; subst h
    refine ⟨good_undef, fun _ v hz => ?_⟩
    have : z = none := hx
    rw [this] at hz; cases hz
  | prod ops =>
    unfold numPowExpr at h
    cases hm : (mapRes powOperandExpr ops : Res (List (Expr F))) with
    | error e => simp only [hm] at h; simp at h
    | ok ts =>
      simp only [hm] at h
      obtain ⟨hg, hv⟩ := powOperands_ok ρ hx.1 (mapRes_ok hm)
      obtain ⟨hgr, hvr⟩ := hK.mul _ _ hg h
      refine ⟨hgr, fun hl v hz => hvr hl v ?_⟩
      rw [hv, prodO_some, hx.2 v hz]

theorem numPowRes_ok {lic : Lic F} {ρ : Env F} {K : Ctors F} (hK : Sound lic ρ K) {x : Res NumPow} {z : Option ℂ} {o : Option (Expr F)}
    (hx : ∀ n, x = .ok n → NumPow.FineAt n z) (h : numPowRes K x = .ok o) :
    ∀ r, o = some r → Good r ∧ (lic.TrueAt ρ → ∀ v, z = some v → eval ρ r = some v) := by
  unfold numPowRes at h
  cases x with
  | error e => simp at h
  | ok n =>
    simp only at h
    cases hn : numPowExpr K n with
    | error e => rw [hn] at h; simp at h
    | ok r' =>
      rw [hn] at h
      simp only [Except.ok.injEq] at h
      subst h
      rintro r ⟨⟩
      exact numPowExpr_ok hK (hx n rfl) hn

theorem powRatInt_fine {b : RatC} {e : Int} (hb : b.Canonical) (he : InI64 e) {n : NumPow} (h : powRatInt b e = .ok n) :
    NumPow.FineAt n (powVal ((b.val : ℚ) : ℂ) (e : ℂ)) := by
  rcases C09_rational_to_integer b e hb he n h with ⟨h0, h1, rfl⟩ | ⟨h0, h1, rfl⟩ | ⟨h0, r, rfl, hr, hv⟩
  · show powVal _ _ = none
    rw [h0, powVal, if_pos (by simp), if_neg]
    have : ¬ (0 : ℝ) < e := by rw [not_lt]; exact_mod_cast h1.le
    simpa using this
  · show powVal _ _ = none
    rw [h0, powVal, if_pos (by simp), if_neg (by simp [h1])]
  · refine ⟨hr, fun v hz => ?_⟩
    rw [hv]; push_cast
    rcases powVal_cases hz with ⟨hx, rfl⟩ | ⟨hx, hw, rfl⟩
    · rw [cpow_intCast]
    · have h1 : b.val = 0 := by exact_mod_cast hx
      have h2 : 0 < e := by simpa using hw
      rw [h1]; simp [zero_zpow e (by omega)]

theorem powIntInt_fine {b e : Int} (hb : InI64 b) (he : InI64 e) {n : NumPow} (h : powIntInt b e = .ok n) :
    NumPow.FineAt n (powVal (b : ℂ) (e : ℂ)) := by
  rcases C09_integer_to_integer b e hb he n h with ⟨h0, h1, rfl⟩ | ⟨h0, h1, rfl⟩ | ⟨h0, r, rfl, hr, hv⟩
  · show powVal _ _ = none
    rw [h0, powVal, if_pos (by simp), if_neg]
    have : ¬ (0 : ℝ) < e := by rw [not_lt]; exact_mod_cast h1.le
    simpa using this
  · show powVal _ _ = none
    rw [h0, powVal, if_pos (by simp), if_neg (by simp [h1])]
  · refine ⟨hr, fun v hz => ?_⟩
    rw [hv]; push_cast
    rcases powVal_cases hz with ⟨hx, rfl⟩ | ⟨hx, hw, rfl⟩
    · rw [cpow_intCast]
    · have h1 : b = 0 := by exact_mod_cast hx
      have h2 : 0 < e := by simpa using hw
      rw [h1]; simp [zero_zpow e (by omega)]

theorem powIntRat_fineAt {b : Int} {e : RatC} (hb : InI64 b) (he : e.Canonical) {n : NumPow} (h : powIntRat b e = .ok n) :
    NumPow.FineAt n (powVal (b : ℂ) ((e.val : ℚ) : ℂ)) := by
  have hre : ((e.val : ℚ) : ℂ).re = ((e.val : ℚ) : ℝ) := by
    have : ((e.val : ℚ) : ℂ) = (((e.val : ℚ) : ℝ) : ℂ) := by push_cast; rfl
    rw [this, ofReal_re]
  rcases C09_integer_to_rational b e hb he n h with ⟨h0, h1, rfl⟩ | ⟨h0, h1, rfl⟩ | ⟨h0, hd⟩
  · show powVal _ _ = none
    rw [h0, powVal, if_pos (by simp), if_neg]
    rw [hre, not_lt]; exact_mod_cast h1.le
  · show powVal _ _ = none
    rw [h0, powVal, if_pos (by simp), if_neg (by rw [hre, h1]; simp)]
  · have key : ∀ v, powVal (b : ℂ) ((e.val : ℚ) : ℂ) = some v → (b : ℂ) ^ ((e.val : ℚ) : ℂ) = v := by
      intro v hz
      rcases powVal_cases hz with ⟨hx, rfl⟩ | ⟨hx, hw, rfl⟩
      · rfl
      · rw [hx, zero_cpow]
        intro h; rw [h] at hw; simp at hw
    cases n with
    | zoo => exact hd.elim
    | undef => exact hd.elim
    | num r => exact ⟨hd.1, fun v hz => by rw [hd.2, key v hz]⟩
    | prod ops => exact ⟨powIntRat_fine hb he h, fun v hz => by
        have : (ops.map PowOperand.val).prod = _ := hd
        rw [this, key v hz]⟩

theorem powFloat_ok {lic : Lic F} {ρ : Env F} {bz en : Bool} {b e : F} {vb ve : Option ℂ} {r : Expr F}
    (hb : ∀ x, vb = some x → ∃ u : ℝ, x = u ∧ FloatSem.val b = some u) (he : ∀ x, ve = some x → ∃ u : ℝ, x = u ∧ FloatSem.val e = some u)
    (hbz : bz = true → ∀ x, vb = some x → x = 0) (hen : en = true → ∀ x, ve = some x → x.re ≤ 0)
    (h : powFloat lic bz en b e = some r) : Good r ∧ (lic.TrueAt ρ → ∀ z, powO vb ve = some z → eval ρ r = some z) := by
  unfold powFloat at h
  by_cases h1 : (bz && en) = true
  · rw [if_pos h1] at h
    cases h
    refine ⟨good_zoo, fun _ z hz => ?_⟩
    exfalso
    rw [Bool.and_eq_true] at h1
    rw [powO_eq_some] at hz
    obtain ⟨x, y, hx, hy, hp⟩ := hz
    have hx0 := hbz h1.1 x hx
    have hy0 := hen h1.2 y hy
    rcases powVal_cases hp with ⟨h, _⟩ | ⟨_, h, _⟩
    · exact h hx0
    · linarith
  · rw [if_neg h1] at h
    by_cases h2 : lic.floatPow b e = true
    · rw [if_pos h2] at h
      cases h
      refine ⟨good_flt _, fun hl z hz => ?_⟩
      rw [powO_eq_some] at hz
      obtain ⟨x, y, hx, hy, hp⟩ := hz
      obtain ⟨u, rfl, hu⟩ := hb x hx
      obtain ⟨v, rfl, hv⟩ := he y hy
      obtain ⟨hz, hc⟩ := powVal_real hp (hl.floatPow b e h2 u v hu hv)
      rw [eval_flt, FloatSem.val_pow b e u v hu hv hc, hz]; rfl
    · rw [if_neg h2] at h; cases h

theorem flt_real {ρ : Env F} {f : F} : ∀ x, eval ρ (.flt f) = some x → ∃ u : ℝ, x = u ∧ FloatSem.val f = some u := by
  intro x hx
  rw [eval_flt] at hx
  obtain ⟨u, hu, rfl⟩ := flt_some hx
  exact ⟨u, rfl, hu⟩

theorem flt_isZero {ρ : Env F} {f : F} (h : fltIsZero f = true) : ∀ x, eval ρ (.flt f) = some x → x = 0 := by
  intro x hx
  obtain ⟨u, rfl, hu⟩ := flt_real x hx
  rw [fltIsZero_val h hu]; simp

theorem fltIsNeg_val {f : F} {x : ℝ} (hx : FloatSem.val f = some x) : fltIsNeg f = true ↔ x < 0 := by
  rw [fltIsNeg, FloatSem.lt_iff f _ x 0 hx (by rw [FloatSem.val_ofInt 0 (inI64_small (by decide) (by decide))]; simp)]

theorem flt_isNeg {ρ : Env F} {f : F} (h : fltIsNeg f = true) : ∀ x, eval ρ (.flt f) = some x → x.re ≤ 0 := by
  intro x hx
  obtain ⟨u, rfl, hu⟩ := flt_real x hx
  exact ((fltIsNeg_val hu).1 h).le

theorem ratC_re (q : ℚ) : ((q : ℚ) : ℂ).re = (q : ℝ) := by
  have : ((q : ℚ) : ℂ) = (((q : ℚ) : ℝ) : ℂ) := by push_cast; rfl
  rw [this, ofReal_re]

theorem powNumeric_ok {lic : Lic F} {ρ : Env F} {K : Ctors F} (hK : Sound lic ρ K) {b e : Expr F} {o : Option (Expr F)} (hb : Good b) (he : Good e)
    (h : powNumeric K lic b e = .ok o) :
    ∀ r, o = some r → Good r ∧ (lic.TrueAt ρ → ∀ z, powO (eval ρ b) (eval ρ e) = some z → eval ρ r = some z) := by
  have vacL : ∀ {r : Expr F}, eval ρ b = none → ∀ z, powO (eval ρ b) (eval ρ e) = some z → eval ρ r = some z := by
    intro r hn z hz; rw [hn] at hz; simp [powO] at hz
  have vacR : ∀ {r : Expr F}, eval ρ e = none → ∀ z, powO (eval ρ b) (eval ρ e) = some z → eval ρ r = some z := by
    intro r hn z hz; rw [hn, powO_eq_some] at hz; obtain ⟨_, _, _, h, _⟩ := hz; cases h
  have zooG : ∀ p n, Good (powZoo p n : Expr F) := by
    intro p n; unfold powZoo
    cases p <;> cases n <;> simp [good_zoo, good_zero, good_undef]
  unfold powNumeric at h
  split at h
  · rename_i hc
    rw [Except.ok.injEq] at h; subst h; rintro r ⟨⟩
    exact ⟨good_undef, fun _ => vacL (by rw [← (ofExpr_ok hb hc ρ).2]; rfl)⟩
  · rename_i hc _
    rw [Except.ok.injEq] at h; subst h; rintro r ⟨⟩
    exact ⟨good_undef, fun _ => vacR (by rw [← (ofExpr_ok he hc ρ).2]; rfl)⟩
  · rename_i x y hx hy
    rw [Except.ok.injEq] at h; subst h
    intro r hr
    have eb := (ofExpr_ok hb hx ρ).2
    have ee := (ofExpr_ok he hy ρ).2
    rw [← eb, ← ee]
    exact powFloat_ok (fun u hu => flt_real (ρ := ρ) u (by rw [eval_flt]; exact hu)) (fun u hu => flt_real (ρ := ρ) u (by rw [eval_flt]; exact hu))
      (fun hz u hu => flt_isZero (ρ := ρ) hz u (by rw [eval_flt]; exact hu)) (fun hz u hu => flt_isNeg (ρ := ρ) hz u (by rw [eval_flt]; exact hu)) hr
  · rename_i x y hx hy
    rw [Except.ok.injEq] at h; subst h
    intro r hr
    obtain ⟨_, eb⟩ := ofExpr_ok hb hx ρ
    obtain ⟨fe, ee⟩ := ofExpr_ok he hy ρ
    rw [← eb, ← ee]
    refine powFloat_ok (fun u hu => flt_real (ρ := ρ) u (by rw [eval_flt]; exact hu)) ?_
      (fun hz u hu => flt_isZero (ρ := ρ) hz u (by rw [eval_flt]; exact hu)) ?_ hr
    · rintro u ⟨⟩; exact ⟨y, by simp, FloatSem.val_ofInt y fe⟩
    · rintro hz u ⟨⟩
      have h1 : y < 0 := by simpa using hz
      have : ((y : ℤ) : ℝ) ≤ 0 := by exact_mod_cast h1.le
      simpa using this
  · rename_i x y hx hy
    rw [Except.ok.injEq] at h; subst h
    intro r hr
    obtain ⟨_, eb⟩ := ofExpr_ok hb hx ρ
    obtain ⟨fe, ee⟩ := ofExpr_ok he hy ρ
    rw [← eb, ← ee]
    refine powFloat_ok (fun u hu => flt_real (ρ := ρ) u (by rw [eval_flt]; exact hu)) ?_
      (fun hz u hu => flt_isZero (ρ := ρ) hz u (by rw [eval_flt]; exact hu)) ?_ hr
    · rintro u ⟨⟩; exact ⟨(y.val : ℝ), by push_cast; rfl, FloatSem.val_ofRat y fe⟩
    · rintro hz u ⟨⟩
      have h1 : y.n < 0 := by simpa [ratIsNegative] using hz
      rw [ratC_re]
      have h2 : y.val ≤ 0 := by
        by_contra hc
        have := (RatC.Canonical.val_nonneg fe).1 (not_le.1 hc).le
        omega
      exact_mod_cast h2
  · rename_i x y hx hy
    rw [Except.ok.injEq] at h; subst h
    intro r hr
    obtain ⟨fb, eb⟩ := ofExpr_ok hb hx ρ
    obtain ⟨fe, ee⟩ := ofExpr_ok he hy ρ
    rw [← eb, ← ee]
    refine powFloat_ok ?_ (fun u hu => flt_real (ρ := ρ) u (by rw [eval_flt]; exact hu)) ?_
      (fun hz u hu => flt_isNeg (ρ := ρ) hz u (by rw [eval_flt]; exact hu)) hr
    · rintro u ⟨⟩; exact ⟨x, by simp, FloatSem.val_ofInt x fb⟩
    · rintro hz u ⟨⟩
      have h1 : x = 0 := by simpa using hz
      simp [h1]
  · rename_i x y hx hy
    rw [Except.ok.injEq] at h; subst h
    intro r hr
    obtain ⟨fb, eb⟩ := ofExpr_ok hb hx ρ
    obtain ⟨fe, ee⟩ := ofExpr_ok he hy ρ
    rw [← eb, ← ee]
    refine powFloat_ok ?_ (fun u hu => flt_real (ρ := ρ) u (by rw [eval_flt]; exact hu)) ?_
      (fun hz u hu => flt_isNeg (ρ := ρ) hz u (by rw [eval_flt]; exact hu)) hr
    · rintro u ⟨⟩; exact ⟨(x.val : ℝ), by push_cast; rfl, FloatSem.val_ofRat x fb⟩
    · rintro hz u ⟨⟩
      have h1 : x.n = 0 := by simpa [ratIsZero] using hz
      rw [(RatC.Canonical.val_eq_zero fb).2 h1]; simp
  · rename_i x y hx hy
    obtain ⟨fb, eb⟩ := ofExpr_ok hb hx ρ
    obtain ⟨fe, ee⟩ := ofExpr_ok he hy ρ
    rw [← eb, ← ee]
    exact numPowRes_ok hK (fun n hn => powIntInt_fine fb fe hn) h
  · rename_i x y hx hy
    obtain ⟨fb, eb⟩ := ofExpr_ok hb hx ρ
    obtain ⟨fe, ee⟩ := ofExpr_ok he hy ρ
    rw [← eb, ← ee]
    exact numPowRes_ok hK (fun n hn => powRatInt_fine fb fe hn) h
  · rename_i x y hx hy
    obtain ⟨fb, eb⟩ := ofExpr_ok hb hx ρ
    obtain ⟨fe, ee⟩ := ofExpr_ok he hy ρ
    rw [← eb, ← ee]
    exact numPowRes_ok hK (fun n hn => powIntRat_fineAt fb fe hn) h
  · rename_i y hc _
    rw [Except.ok.injEq] at h; subst h; rintro r ⟨⟩
    exact ⟨zooG _ _, fun _ => vacL (by rw [← (ofExpr_ok hb hc ρ).2]; rfl)⟩
  · rename_i y hc _
    rw [Except.ok.injEq] at h; subst h; rintro r ⟨⟩
    exact ⟨zooG _ _, fun _ => vacL (by rw [← (ofExpr_ok hb hc ρ).2]; rfl)⟩
  · rename_i y hc _
    rw [Except.ok.injEq] at h; subst h; rintro r ⟨⟩
    exact ⟨zooG _ _, fun _ => vacL (by rw [← (ofExpr_ok hb hc ρ).2]; rfl)⟩
  · rw [Except.ok.injEq] at h; subst h; rintro r ⟨⟩

/-! ### Powers of the imaginary unit -/

theorem imagInt_ok (ρ : Env F) (n : Int) : Good (imagInt n : Expr F) ∧ eval ρ (imagInt n : Expr F) = some (I ^ n) := by
  have h := C09_imaginary_integer_power n
  unfold imagInt
  rw [← h]
  cases imaginaryUnitPower n with
  | one => exact ⟨good_one, by simp [IPow.val]⟩
  | negOne => exact ⟨good_negOne, by simp [IPow.val]⟩
  | i => exact ⟨good_imag, by simp [IPow.val]⟩
  | negI => exact ⟨good_newMul2 good_negOne good_imag (Or.inr rfl), by show eval ρ (newMul2 _ _) = _; rw [eval_newMul2]; simp [IPow.val]⟩

theorem imagRatExpr_ok (ρ : Env F) {r : RatC} (hr : r.Canonical) {x : Expr F} (h : imagRatExpr r = .ok x) :
    Good x ∧ eval ρ x = some (I ^ ((r.val : ℚ) : ℂ)) := by
  unfold imagRatExpr at h
  cases hp : imagRat r with
  | error e => rw [hp] at h; simp at h
  | ok p =>
    simp only [hp] at h
    have hv := C09_imaginary_rational_power r hr p hp
    have hc := imagRat_fine hr hp
    cases hx : (ratExpr p.exponent : Res (Expr F)) with
    | error e => simp only [hx] at h; simp at h
    | ok y =>
      simp only [hx, Except.ok.injEq] at h
      obtain ⟨_, hg, hev, _⟩ := ratExpr_ok hc hx
      have hpw : eval ρ (.pow .imag y : Expr F) = some (I ^ ((p.exponent.val : ℚ) : ℂ)) := by
        rw [eval_pow, eval_imag, hev ρ, powO_some, powVal_of_ne I_ne_zero]
      subst h
      cases hn : p.negative with
      | true =>
        rw [hn] at hv
        simp only [if_true] at hv ⊢
        refine ⟨good_newMul2 good_negOne (good_pow.2 ⟨good_imag, hg⟩) (Or.inr rfl), ?_⟩
        rw [eval_newMul2, hpw, eval_int, mulO_some, ← hv]; simp
      | false =>
        rw [hn] at hv
        simp only [Bool.false_eq_true, if_false, one_mul] at hv ⊢
        exact ⟨good_pow.2 ⟨good_imag, hg⟩, by rw [hpw, hv]⟩

theorem powImag_ok {ρ : Env F} {b e : Expr F} {o : Option (Expr F)} (he : Good e) (h : powImag b e = .ok o) :
    ∀ r, o = some r → Good r ∧ ∀ z, powO (eval ρ b) (eval ρ e) = some z → eval ρ r = some z := by
  unfold powImag at h
  by_cases hi : isImag b = true
  · rw [if_pos hi] at h
    rw [isImag_iff.1 hi, eval_imag]
    split at h
    · rename_i n
      rw [Except.ok.injEq] at h; subst h; rintro r ⟨⟩
      obtain ⟨hg, hv⟩ := imagInt_ok ρ n
      refine ⟨hg, fun z hz => ?_⟩
      rw [eval_int, powO_some, powVal_of_ne I_ne_zero, cpow_intCast] at hz
      rw [hv]; exact hz
    · rename_i q
      cases hx : (imagRatExpr q : Res (Expr F)) with
      | error e => rw [hx] at h; simp at h
      | ok x =>
        rw [hx] at h
        rw [Except.ok.injEq] at h; subst h; rintro r ⟨⟩
        obtain ⟨hg, hv⟩ := imagRatExpr_ok ρ (good_rat.1 he).1 hx
        refine ⟨hg, fun z hz => ?_⟩
        rw [eval_rat, powO_some, powVal_of_ne I_ne_zero] at hz
        rw [hv]; exact hz
    · rw [Except.ok.injEq] at h; subst h; rintro r ⟨⟩
  · rw [if_neg hi] at h
    rw [Except.ok.injEq] at h; subst h; rintro r ⟨⟩

/-! ### Symbolic powers -/

theorem canMulExp_ok {lic : Lic F} {ρ : Env F} {b0 e0 e : Expr F} (hg0 : Good e0) (h : canMulExp lic b0 e0 e = .ok true) (hl : lic.TrueAt ρ)
    {x w v a z : ℂ} (hx : eval ρ b0 = some x) (hw : eval ρ e0 = some w) (hv : eval ρ e = some v)
    (h1 : powVal x w = some a) (h2 : powVal a v = some z) : powVal x (w * v) = some z := by
  unfold canMulExp at h
  cases hm : magLtOne e0 with
  | error er => rw [hm] at h; simp at h
  | ok m =>
    rw [hm] at h
    simp only [Except.ok.injEq, Bool.or_eq_true] at h
    rcases h with (h | h) | h
    · subst h
      unfold magLtOne at hm
      split at hm
      · rename_i r
        have hp := ratIsProper_ok (good_rat.1 hg0).1 hm rfl
        rw [eval_rat] at hw
        cases hw
        have e1 : ((r.val : ℚ) : ℂ) = (((r.val : ℚ) : ℝ) : ℂ) := by push_cast; rfl
        rw [e1] at h1 ⊢
        exact powVal_nested_small (by exact_mod_cast hp) h1 h2
      · rename_i f
        rw [eval_flt] at hw
        obtain ⟨u, hu, rfl⟩ := flt_some hw
        simp only [Except.ok.injEq] at hm
        exact powVal_nested_small ((FloatSem.absLtOne_iff f u hu).1 hm) h1 h2
      · simp at hm
    · unfold isIntConst at h
      split at h
      · rw [eval_int] at hv
        cases hv
        exact powVal_nested_int h1 h2
      · simp at h
    · obtain ⟨hi, h0, hwi⟩ := hl.mulExp b0 e0 h x w hx hw
      exact powVal_nested_nonneg hi h0 hwi h1 h2

/-- Powers of each of several expressions. -/
theorem mapPow_ok {lic : Lic F} {ρ : Env F} {K : Ctors F} (hK : Sound lic ρ K) {e : Expr F} (he : Good e) {ts ps : List (Expr F)}
    (hg : ∀ t ∈ ts, Good t) (h : List.Forall₂ (fun t p => K.pow t e = .ok p) ts ps) :
    (∀ p ∈ ps, Good p) ∧ (lic.TrueAt ρ → ∀ z, prodO (ts.map (fun t => powO (eval ρ t) (eval ρ e))) = some z → prodO (ps.map (eval ρ)) = some z) := by
  induction h with
  | nil => exact ⟨by simp, fun _ z hz => by simpa using hz⟩
  | cons hab _ ih =>
    obtain ⟨hgr, hv⟩ := hK.pow _ _ _ (hg _ (by simp)) he hab
    obtain ⟨hgs, hvs⟩ := ih (fun t ht => hg t (by simp [ht]))
    refine ⟨by simpa [hgr] using hgs, fun hl z hz => ?_⟩
    rw [List.map_cons, prodO_cons_some] at hz ⊢
    obtain ⟨x, y, hx, hy, rfl⟩ := hz
    exact ⟨x, y, hv hl x hx, hvs hl y hy, rfl⟩

theorem powO_prod_int {n : ℤ} : ∀ {vs : List (Option ℂ)} {z : ℂ}, powO (prodO vs) (some (n : ℂ)) = some z →
    prodO (vs.map (fun v => powO v (some (n : ℂ)))) = some z := by
  intro vs
  induction vs with
  | nil =>
    intro z hz
    rw [prodO_nil, powO_some, powVal_one_base] at hz
    simpa using hz
  | cons v vs ih =>
    intro z hz
    rw [powO_eq_some] at hz
    obtain ⟨x, _, hx, ⟨⟩, hp⟩ := hz
    rw [prodO_cons, mulO_eq_some] at hx
    obtain ⟨p, q, hpv, hq, rfl⟩ := hx
    obtain ⟨a, b, ha, hb, rfl⟩ := powVal_mul_int hp
    rw [List.map_cons, prodO_cons, hpv, powO_some, ha, ih (z := b) (by rw [hq, powO_some, hb])]; rfl

theorem powO_prod_nonneg {w : ℝ} {y : Option ℂ} : ∀ {vs : List (Option ℂ)} {z : ℂ}, (∀ v ∈ vs, ∀ x, v = some x → x.im = 0 ∧ 0 ≤ x.re) →
    powO (mulO (prodO vs) y) (some (w : ℂ)) = some z →
    mulO (prodO (vs.map (fun v => powO v (some (w : ℂ))))) (powO y (some (w : ℂ))) = some z := by
  intro vs
  induction vs with
  | nil =>
    intro z _ hz
    rw [prodO_nil, one_mulO] at hz
    rw [List.map_nil, prodO_nil, one_mulO]; exact hz
  | cons v vs ih =>
    intro z hr hz
    rw [powO_eq_some] at hz
    obtain ⟨x, _, hx, ⟨⟩, hp⟩ := hz
    rw [prodO_cons, mulO_assoc, mulO_eq_some] at hx
    obtain ⟨p, q, hpv, hq, rfl⟩ := hx
    obtain ⟨hpi, hp0⟩ := hr v (by simp) p hpv
    obtain ⟨u, rfl⟩ : ∃ u : ℝ, p = u := ⟨p.re, by apply Complex.ext <;> simp [hpi]⟩
    obtain ⟨a, b, ha, hb, rfl⟩ := powVal_mul_nonneg (by simpa using hp0) hp
    rw [List.map_cons, prodO_cons, hpv, powO_some, ha, mulO_assoc, ih (z := b) (fun v hv => hr v (by simp [hv])) (by rw [hq, powO_some, hb])]; rfl

theorem powProduct_ok {lic : Lic F} {ρ : Env F} {K : Ctors F} (hK : Sound lic ρ K) {n : Int} {ts : List (Expr F)} {o : Option (Expr F)}
    (hg : ∀ t ∈ ts, Good t) (he : InI64 n) (h : powProduct K ts (.int n) = .ok o) :
    ∀ r, o = some r → Good r ∧ (lic.TrueAt ρ → ∀ z, powO (prodO (ts.map (eval ρ))) (some (n : ℂ)) = some z → eval ρ r = some z) := by
  unfold powProduct at h
  cases hm : mapRes (fun t => K.pow t (.int n)) ts with
  | error er => rw [hm] at h; simp at h
  | ok ps =>
    rw [hm] at h
    simp only at h
    obtain ⟨hgp, hvp⟩ := mapPow_ok hK (good_int.2 he) hg (mapRes_ok hm)
    cases hx : K.mul ps with
    | error er => rw [hx] at h; simp at h
    | ok x =>
      rw [hx] at h
      simp only [Except.ok.injEq] at h
      subst h
      rintro r ⟨⟩
      obtain ⟨hgx, hvx⟩ := hK.mul _ _ hgp hx
      refine ⟨hgx, fun hl z hz => hvx hl z (hvp hl z ?_)⟩
      have := powO_prod_int hz
      rw [List.map_map] at this
      simpa [Function.comp_def] using this

theorem distributeExp_ok {lic : Lic F} {ρ : Env F} {K : Ctors F} (hK : Sound lic ρ K) {q : RatC} {ts : List (Expr F)} {o : Option (Expr F)}
    (hg : ∀ t ∈ ts, Good t) (he : Good (.rat q : Expr F)) (h : distributeExp K lic ts (.rat q) = .ok o) :
    ∀ r, o = some r → Good r ∧
      (lic.TrueAt ρ → ∀ z, powO (prodO (ts.map (eval ρ))) (some ((q.val : ℚ) : ℂ)) = some z → eval ρ r = some z) := by
  have e1 : ((q.val : ℚ) : ℂ) = (((q.val : ℚ) : ℝ) : ℂ) := by push_cast; rfl
  unfold distributeExp at h
  cases hm : mapRes (fun t => K.pow t (.rat q)) (ts.filter lic.nonneg) with
  | error er => rw [hm] at h; simp at h
  | ok ps =>
    rw [hm] at h
    obtain ⟨hgp, hvp⟩ := mapPow_ok hK he (fun t ht => hg t (List.mem_filter.1 ht).1) (mapRes_ok hm)
    have key : lic.TrueAt ρ → ∀ z, powO (prodO (ts.map (eval ρ))) (some ((q.val : ℚ) : ℂ)) = some z →
        ∃ a b, prodO (ps.map (eval ρ)) = some a ∧
          powO (prodO ((ts.filter (fun t => !lic.nonneg t)).map (eval ρ))) (some ((q.val : ℚ) : ℂ)) = some b ∧ z = a * b := by
      intro hl z hz
      rw [← prodO_partition (eval ρ) lic.nonneg, e1] at hz
      have := powO_prod_nonneg (by
        intro v hv x hx
        obtain ⟨t, ht, rfl⟩ := List.mem_map.1 hv
        exact hl.nonneg t (List.mem_filter.1 ht).2 x hx) hz
      rw [mulO_eq_some] at this
      obtain ⟨a, b, ha, hb, rfl⟩ := this
      refine ⟨a, b, hvp hl a ?_, by rw [e1]; exact hb, rfl⟩
      rw [List.map_map] at ha
      rw [eval_rat, e1]
      simpa [Function.comp_def] using ha
    cases ps with
    | nil =>
      simp only [Except.ok.injEq] at h
      subst h
      rintro r ⟨⟩
    | cons p ps =>
      simp only at h
      cases ha : K.mul (p :: ps) with
      | error er => rw [ha] at h; simp at h
      | ok a =>
        rw [ha] at h
        simp only at h
        obtain ⟨hga, hva⟩ := hK.mul _ _ hgp ha
        by_cases hr : ts.filter (fun t => !lic.nonneg t) = []
        · rw [if_pos hr] at h
          simp only [Except.ok.injEq] at h
          subst h
          rintro r ⟨⟩
          refine ⟨hga, fun hl z hz => ?_⟩
          obtain ⟨u, v, hu, hv, rfl⟩ := key hl z hz
          rw [hr, List.map_nil, prodO_nil, powO_some, powVal_one_base] at hv
          cases hv
          rw [hva hl u hu, mul_one]
        · rw [if_neg hr] at h
          cases hb : K.mul (ts.filter (fun t => !lic.nonneg t)) with
          | error er => rw [hb] at h; simp at h
          | ok b =>
            rw [hb] at h
            simp only at h
            obtain ⟨hgb, hvb⟩ := hK.mul _ _ (fun t ht => hg t (List.mem_filter.1 ht).1) hb
            cases hp : K.pow b (.rat q) with
            | error er => rw [hp] at h; simp at h
            | ok y =>
              rw [hp] at h
              simp only at h
              obtain ⟨hgy, hvy⟩ := hK.pow _ _ _ hgb he hp
              cases hx : K.mul [a, y] with
              | error er => rw [hx] at h; simp at h
              | ok x =>
                rw [hx] at h
                simp only [Except.ok.injEq] at h
                subst h
                rintro r ⟨⟩
                obtain ⟨hgx, hvx⟩ := hK.mul _ _ (by simp [hga, hgy]) hx
                refine ⟨hgx, fun hl z hz => hvx hl z ?_⟩
                obtain ⟨u, v, hu, hv, rfl⟩ := key hl z hz
                rw [powO_eq_some] at hv
                obtain ⟨s, _, hs, ⟨⟩, hv⟩ := hv
                have h2 := hvy hl v (by rw [hvb hl s hs, eval_rat, powO_some, hv])
                simp only [List.map_cons, List.map_nil, prodO_cons, prodO_nil, mulO_one]
                rw [hva hl u hu, h2, mulO_some]

theorem powTail_ok {lic : Lic F} {ρ : Env F} {K : Ctors F} (hK : Sound lic ρ K) {b e : Expr F} {o : Option (Expr F)} (hb : Good b) (he : Good e)
    (h : powTail K lic b e = .ok o) :
    ∀ r, o = some r → Good r ∧ (lic.TrueAt ρ → ∀ z, powO (eval ρ b) (eval ρ e) = some z → eval ρ r = some z) := by
  unfold powTail at h
  by_cases h0 : isZoo e = true
  · rw [if_pos h0] at h
    simp only [Except.ok.injEq] at h; subst h; rintro r ⟨⟩
    refine ⟨good_undef, fun _ z hz => ?_⟩
    rw [isZoo_iff.1 h0, eval_zoo, powO_eq_some] at hz
    obtain ⟨_, _, _, h, _⟩ := hz; cases h
  rw [if_neg h0] at h
  by_cases h1 : isInt 0 e = true
  · rw [if_pos h1] at h
    simp only [Except.ok.injEq] at h; subst h; rintro r ⟨⟩
    refine ⟨good_one, fun _ z hz => ?_⟩
    rw [isInt_iff.1 h1, eval_int, powO_eq_some] at hz
    obtain ⟨x, _, _, ⟨⟩, hp⟩ := hz
    rw [Int.cast_zero] at hp
    rw [powVal_zero hp]; simp
  rw [if_neg h1] at h
  by_cases h2 : isInt 1 e = true
  · rw [if_pos h2] at h
    simp only [Except.ok.injEq] at h; subst h; rintro r ⟨⟩
    refine ⟨hb, fun _ z hz => ?_⟩
    rw [isInt_iff.1 h2, eval_int, powO_eq_some] at hz
    obtain ⟨x, _, hx, ⟨⟩, hp⟩ := hz
    rw [Int.cast_one, powVal_one] at hp
    rw [hx, hp]
  rw [if_neg h2] at h
  split at h
  · rename_i ts n
    have := powProduct_ok hK (good_mul.1 hb).2 (good_int.1 he) h
    intro r hr
    obtain ⟨hg, hv⟩ := this r hr
    exact ⟨hg, fun hl z hz => hv hl z (by rw [← eval_mul, ← eval_int ρ n]; exact hz)⟩
  · rename_i ts q
    have := distributeExp_ok hK (good_mul.1 hb).2 he h
    intro r hr
    obtain ⟨hg, hv⟩ := this r hr
    exact ⟨hg, fun hl z hz => hv hl z (by rw [← eval_mul, ← eval_rat ρ q]; exact hz)⟩
  · simp only [Except.ok.injEq] at h; subst h; rintro r ⟨⟩

theorem powNested_ok {lic : Lic F} {ρ : Env F} {K : Ctors F} (hK : Sound lic ρ K) {b e : Expr F} {o : Option (Expr F)} (hb : Good b) (he : Good e)
    (h : powNested K lic b e = .ok o) :
    ∀ r, o = some r → Good r ∧ (lic.TrueAt ρ → ∀ z, powO (eval ρ b) (eval ρ e) = some z → eval ρ r = some z) := by
  unfold powNested at h
  split at h
  · rename_i b0 e0
    obtain ⟨hg0, hge0⟩ := good_pow.1 hb
    cases hc : canMulExp lic b0 e0 e with
    | error er => rw [hc] at h; simp at h
    | ok m =>
      rw [hc] at h
      cases m with
      | false => exact powTail_ok hK hb he h
      | true =>
        simp only at h
        cases hx : K.mul [e0, e] with
        | error er => rw [hx] at h; simp at h
        | ok x =>
          rw [hx] at h
          simp only at h
          cases hp : K.pow b0 x with
          | error er => rw [hp] at h; simp at h
          | ok p =>
            rw [hp] at h
            simp only [Except.ok.injEq] at h; subst h; rintro r ⟨⟩
            obtain ⟨hgx, hvx⟩ := hK.mul _ _ (by simp [hge0, he]) hx
            obtain ⟨hgp, hvp⟩ := hK.pow _ _ _ hg0 hgx hp
            refine ⟨hgp, fun hl z hz => hvp hl z ?_⟩
            have hz : powO (eval ρ (.pow b0 e0)) (eval ρ e) = some z := hz
            rw [eval_pow, powO_eq_some] at hz
            obtain ⟨a, v, ha, hv, h2⟩ := hz
            rw [powO_eq_some] at ha
            obtain ⟨u, w, hu, hw, h1⟩ := ha
            have h3 := hvx hl (w * v) (by simp only [List.map_cons, List.map_nil, prodO_cons, prodO_nil, mulO_one]; rw [hw, hv, mulO_some])
            rw [hu, h3, powO_some]
            exact canMulExp_ok hge0 hc hl hu hw hv h1 h2
  · rename_i x
    have hgx : Good x := good_fn.1 hb x (by simp)
    by_cases hc : (lic.expReal x || isIntConst e) = true
    · rw [if_pos hc] at h
      cases hy : K.mul [x, e] with
      | error er => rw [hy] at h; simp at h
      | ok y =>
        rw [hy] at h
        simp only at h
        cases hp : expFn K y with
        | error er => rw [hp] at h; simp at h
        | ok p =>
          rw [hp] at h
          simp only [Except.ok.injEq] at h; subst h; rintro r ⟨⟩
          obtain ⟨hgy, hvy⟩ := hK.mul _ _ (by simp [hgx, he]) hy
          obtain ⟨hgp, hvp⟩ := expFn_ok hK hgy hp
          refine ⟨hgp, fun hl z hz => ?_⟩
          have hz : powO (eval ρ (.fn .exp [x])) (eval ρ e) = some z := hz
          rw [eval_exp, powO_eq_some] at hz
          obtain ⟨a, v, ha, hv, h2⟩ := hz
          cases hw : eval ρ x with
          | none => rw [hw] at ha; cases ha
          | some w =>
            rw [hw] at ha; cases ha
            have h3 := hvy hl (w * v) (by simp only [List.map_cons, List.map_nil, prodO_cons, prodO_nil, mulO_one]; rw [hw, hv, mulO_some])
            rw [hvp hl _ h3]
            congr 1
            refine (powVal_exp ?_ h2).symm
            rw [Bool.or_eq_true] at hc
            rcases hc with hc | hc
            · exact Or.inl (hl.expReal x hc w hw)
            · right
              unfold isIntConst at hc
              split at hc
              · rename_i n
                rw [eval_int] at hv; cases hv
                exact ⟨n, rfl⟩
              · simp at hc
    · rw [if_neg hc] at h
      exact powTail_ok hK hb he h
  · exact powTail_ok hK hb he h

theorem powSymbolic_ok {lic : Lic F} {ρ : Env F} {K : Ctors F} (hK : Sound lic ρ K) {b e : Expr F} {o : Option (Expr F)} (hb : Good b) (he : Good e)
    (h : powSymbolic K lic b e = .ok o) :
    ∀ r, o = some r → Good r ∧ (lic.TrueAt ρ → ∀ z, powO (eval ρ b) (eval ρ e) = some z → eval ρ r = some z) := by
  unfold powSymbolic at h
  by_cases h0 : ((isInt 1 b || isInt (-1) b) && isZoo e) = true
  · rw [if_pos h0] at h
    simp only [Except.ok.injEq] at h; subst h; rintro r ⟨⟩
    refine ⟨good_undef, fun _ z hz => ?_⟩
    rw [Bool.and_eq_true] at h0
    rw [isZoo_iff.1 h0.2, eval_zoo, powO_eq_some] at hz
    obtain ⟨_, _, _, h, _⟩ := hz; cases h
  rw [if_neg h0] at h
  cases hi : powImag b e with
  | error er => rw [hi] at h; simp at h
  | ok oi =>
    rw [hi] at h
    cases oi with
    | some r' =>
      simp only [Except.ok.injEq] at h; subst h; rintro r ⟨⟩
      obtain ⟨hg, hv⟩ := powImag_ok (ρ := ρ) he hi _ rfl
      exact ⟨hg, fun _ => hv⟩
    | none =>
      simp only at h
      by_cases hc : isConst .euler b = true
      · rw [if_pos hc] at h
        cases hx : expFn K e with
        | error er => rw [hx] at h; simp at h
        | ok x =>
          rw [hx] at h
          simp only [Except.ok.injEq] at h; subst h; rintro r ⟨⟩
          obtain ⟨hg, hv⟩ := expFn_ok hK he hx
          refine ⟨hg, fun hl z hz => ?_⟩
          rw [isConst_iff.1 hc, eval_const, powO_eq_some] at hz
          obtain ⟨_, w, ⟨⟩, hw, hp⟩ := hz
          rw [hv hl w hw, powVal_euler hp]
      · rw [if_neg hc] at h
        exact powNested_ok hK hb he h

theorem powSimplify_ok {lic : Lic F} {ρ : Env F} {K : Ctors F} (hK : Sound lic ρ K) {b e : Expr F} {o : Option (Expr F)} (hb : Good b) (he : Good e)
    (h : powSimplify K lic b e = .ok o) :
    ∀ r, o = some r → Good r ∧ (lic.TrueAt ρ → ∀ z, powO (eval ρ b) (eval ρ e) = some z → eval ρ r = some z) := by
  unfold powSimplify at h
  cases hn : powNumeric K lic b e with
  | error er => rw [hn] at h; simp at h
  | ok on =>
    rw [hn] at h
    cases on with
    | some r' =>
      simp only [Except.ok.injEq] at h; subst h
      exact powNumeric_ok hK hb he hn
    | none => exact powSymbolic_ok hK hb he h

theorem powCreate_ok {lic : Lic F} {ρ : Env F} {K : Ctors F} (hK : Sound lic ρ K) {b e r : Expr F} (hb : Good b) (he : Good e)
    (h : powCreate K lic b e = .ok r) :
    Good r ∧ (lic.TrueAt ρ → ∀ z, powO (eval ρ b) (eval ρ e) = some z → eval ρ r = some z) := by
  unfold powCreate at h
  cases hs : powSimplify K lic b e with
  | error er => rw [hs] at h; simp at h
  | ok o =>
    rw [hs] at h
    cases o with
    | some r' =>
      simp only [Except.ok.injEq] at h; subst h
      exact powSimplify_ok hK hb he hs _ rfl
    | none =>
      simp only [Except.ok.injEq] at h; subst h
      exact ⟨good_pow.2 ⟨hb, he⟩, fun _ z hz => by rw [eval_pow]; exact hz⟩

/-! ### Products -/

mutual
theorem flatMul_prod (ρ : Env F) : ∀ e : Expr F, prodO ((flatMul e).map (eval ρ)) = eval ρ e
  | .node h as => by
    rw [flatMul.eq_def]
    cases h
    case mul => rw [flatMuls_prod ρ as]; exact (eval_mul ρ as).symm
    all_goals simp [prodO_cons]
theorem flatMuls_prod (ρ : Env F) : ∀ es : List (Expr F), prodO ((flatMuls es).map (eval ρ)) = prodO (es.map (eval ρ))
  | [] => by rw [flatMuls]
  | a :: as => by rw [flatMuls, List.map_append, prodO_append, flatMul_prod ρ a, flatMuls_prod ρ as]; rfl
end

mutual
theorem flatMul_good : ∀ e : Expr F, Good e → ∀ t ∈ flatMul e, Good t
  | .node h as => by
    intro hg t ht
    rw [flatMul.eq_def] at ht
    cases h
    case mul => exact flatMuls_good as (good_node.1 hg).2 t ht
    all_goals (simp only [List.mem_singleton] at ht; subst ht; exact hg)
theorem flatMuls_good : ∀ es : List (Expr F), (∀ e ∈ es, Good e) → ∀ t ∈ flatMuls es, Good t
  | [] => by intro _ t ht; rw [flatMuls] at ht; simp at ht
  | a :: as => by
    intro hg t ht
    rw [flatMuls, List.mem_append] at ht
    rcases ht with ht | ht
    · exact flatMul_good a (hg a (by simp)) t ht
    · exact flatMuls_good as (fun e he => hg e (by simp [he])) t ht
end

/-- The value of an entry of `multiplication_parts`. -/
noncomputable def entryVal (ρ : Env F) (be : Expr F × Expr F) : Option ℂ := powO (eval ρ be.1) (eval ρ be.2)

theorem MulParts.val_eq (ρ : Env F) (p : MulParts F) : p.val ρ = mulO p.coeff.val (prodO (p.terms.map (entryVal ρ))) := rfl

theorem mergePower_ok {lic : Lic F} {ρ : Env F} {K : Ctors F} (hK : Sound lic ρ K) {p q : MulParts F} {b u e0 : Expr F} (hp : p.Fine) (hb : Good b)
    (hu : Good u) (hf : findKey b p.terms = some e0) (h : mergePower K lic p b u = .ok q) :
    q.Fine ∧ (lic.TrueAt ρ → ∀ z, (∃ rest w, mulO p.coeff.val (prodO ((eraseKey b p.terms).map (entryVal ρ))) = some rest ∧
      powO (eval ρ b) (eval ρ u) = some w ∧ z = rest * w) → q.val ρ = some z) := by
  obtain ⟨l1, l2, hl, hset, her⟩ := findKey_split hf
  have hset_ok : ∀ q, q = { p with terms := setKey b u p.terms } → q.Fine ∧ (lic.TrueAt ρ → ∀ z,
      (∃ rest w, mulO p.coeff.val (prodO ((eraseKey b p.terms).map (entryVal ρ))) = some rest ∧
      powO (eval ρ b) (eval ρ u) = some w ∧ z = rest * w) → q.val ρ = some z) := by
    rintro q rfl
    refine ⟨⟨hp.1, ?_⟩, fun _ z hz => ?_⟩
    · show ∀ be ∈ setKey b u p.terms, Good be.1 ∧ Good be.2
      rw [hset]
      intro be hbe
      rw [List.mem_append, List.mem_cons] at hbe
      rcases hbe with hbe | rfl | hbe
      · exact hp.2 be (by rw [hl]; simp [hbe])
      · exact ⟨hb, hu⟩
      · exact hp.2 be (by rw [hl]; simp [hbe])
    · obtain ⟨rest, w, hr, hw, rfl⟩ := hz
      show mulO p.coeff.val (prodO ((setKey b u p.terms).map (entryVal ρ))) = _
      rw [her, List.map_append, prodO_append, mulO_eq_some] at hr
      obtain ⟨x, y, hx, hy, rfl⟩ := hr
      rw [mulO_eq_some] at hy
      obtain ⟨s, t, hs, ht, rfl⟩ := hy
      rw [hset, List.map_append, prodO_append, List.map_cons, prodO_cons, hx, hs, ht]
      show mulO (some x) (mulO (some s) (mulO (powO (eval ρ b) (eval ρ u)) (some t))) = _
      rw [hw, mulO_some, mulO_some, mulO_some]
      congr 1; ring
  unfold mergePower at h
  by_cases hm : isMulOrPow b = true
  · rw [if_pos hm] at h
    cases hs : powSimplify K lic b u with
    | error er => rw [hs] at h; simp at h
    | ok o =>
      rw [hs] at h
      cases o with
      | none =>
        simp only [Except.ok.injEq] at h
        exact hset_ok q h.symm
      | some r =>
        simp only at h
        by_cases hr : isMulOrPow r = true
        · rw [if_pos hr] at h
          obtain ⟨hgr, hvr⟩ := powSimplify_ok hK hb hu hs r rfl
          have hpe : ({ p with terms := eraseKey b p.terms } : MulParts F).Fine := by
            refine ⟨hp.1, ?_⟩
            show ∀ be ∈ eraseKey b p.terms, Good be.1 ∧ Good be.2
            rw [her]
            intro be hbe
            rw [List.mem_append] at hbe
            rcases hbe with hbe | hbe
            · exact hp.2 be (by rw [hl]; simp [hbe])
            · exact hp.2 be (by rw [hl]; simp [hbe])
          obtain ⟨hq, hvq⟩ := hK.visit _ _ _ hpe hgr h
          refine ⟨hq, fun hlt z hz => hvq hlt z ?_⟩
          obtain ⟨rest, w, hrest, hw, rfl⟩ := hz
          rw [mulO_eq_some]
          exact ⟨rest, w, hrest, hvr hlt w hw, rfl⟩
        · rw [if_neg hr] at h
          simp only [Except.ok.injEq] at h
          exact hset_ok q h.symm
  · rw [if_neg hm] at h
    simp only [Except.ok.injEq] at h
    exact hset_ok q h.symm

theorem insertPower_ok {lic : Lic F} {ρ : Env F} {K : Ctors F} (hK : Sound lic ρ K) {p q : MulParts F} {b e : Expr F} (hp : p.Fine) (hb : Good b)
    (he : Good e) (h : insertPower K lic p b e = .ok q) :
    q.Fine ∧ (lic.TrueAt ρ → ∀ z, mulO (p.val ρ) (powO (eval ρ b) (eval ρ e)) = some z → q.val ρ = some z) := by
  unfold insertPower at h
  cases hf : findKey b p.terms with
  | none =>
    rw [hf] at h
    simp only [Except.ok.injEq] at h
    subst h
    refine ⟨⟨hp.1, ?_⟩, fun _ z hz => ?_⟩
    · intro be hbe
      have hbe : be ∈ p.terms ++ [(b, e)] := hbe
      rw [List.mem_append, List.mem_singleton] at hbe
      rcases hbe with hbe | rfl
      · exact hp.2 be hbe
      · exact ⟨hb, he⟩
    · show mulO p.coeff.val (prodO ((p.terms ++ [(b, e)]).map (entryVal ρ))) = _
      rw [List.map_append, prodO_append, ← mulO_assoc, List.map_singleton, prodO_cons, prodO_nil, mulO_one]
      exact hz
  | some e0 =>
    rw [hf] at h
    simp only at h
    obtain ⟨l1, l2, hl, hset, her⟩ := findKey_split hf
    have hg0 : Good e0 := (hp.2 (b, e0) (by rw [hl]; simp)).2
    cases ha : K.add [e0, e] with
    | error er => rw [ha] at h; simp at h
    | ok u =>
      rw [ha] at h
      simp only at h
      obtain ⟨hgu, hvu⟩ := hK.add _ _ (by simp [hg0, he]) ha
      obtain ⟨hq, hvq⟩ := mergePower_ok hK hp hb hgu hf h
      refine ⟨hq, fun hlt z hz => hvq hlt z ?_⟩
      rw [MulParts.val_eq, hl, List.map_append, prodO_append, List.map_cons, prodO_cons, mulO_eq_some] at hz
      obtain ⟨x, y, hx, hy, rfl⟩ := hz
      rw [mulO_eq_some] at hx
      obtain ⟨c, d, hc, hd, rfl⟩ := hx
      rw [mulO_eq_some] at hd
      obtain ⟨s, t, hs, ht, rfl⟩ := hd
      rw [mulO_eq_some] at ht
      obtain ⟨v, w, hv, hw, rfl⟩ := ht
      have hv : powO (eval ρ b) (eval ρ e0) = some v := hv
      rw [powO_eq_some] at hv hy
      obtain ⟨β, ε, hβ, hε, h1⟩ := hv
      obtain ⟨β', ε', hβ', hε', h2⟩ := hy
      rw [hβ] at hβ'; cases hβ'
      have h3 := hvu hlt (ε + ε') (by simp only [List.map_cons, List.map_nil, sumO_cons, sumO_nil, addO_zero]; rw [hε, hε', addO_some])
      refine ⟨c * (s * w), v * y, ?_, ?_, by ring⟩
      · rw [her, List.map_append, prodO_append, hc, hs, hw]; rfl
      · rw [hβ, h3, powO_some]; exact powVal_add h1 h2

theorem mulTerm_ok {lic : Lic F} {ρ : Env F} {K : Ctors F} (hK : Sound lic ρ K) {p q : MulParts F} {t : Expr F} (hp : p.Fine) (ht : Good t)
    (h : mulTerm K lic p t = .ok q) :
    q.Fine ∧ (lic.TrueAt ρ → ∀ z, mulO (p.val ρ) (eval ρ t) = some z → q.val ρ = some z) := by
  unfold mulTerm at h
  cases hc : Coeff.ofExpr t with
  | some c =>
    rw [hc] at h
    obtain ⟨hcf, hcv⟩ := ofExpr_ok ht hc ρ
    simp only at h
    cases ha : mulCoeff p.coeff c with
    | error e => rw [ha] at h; simp at h
    | ok c' =>
      rw [ha] at h
      simp only [Except.ok.injEq] at h
      subst h
      obtain ⟨hf, hv⟩ := mulCoeff_ok hp.1 hcf ha
      refine ⟨⟨hf, hp.2⟩, fun _ z hz => ?_⟩
      rw [mulO_eq_some] at hz
      obtain ⟨x, y, hx, hy, rfl⟩ := hz
      rw [MulParts.val_eq, mulO_eq_some] at hx
      obtain ⟨u, v, hu, hv', rfl⟩ := hx
      show mulO c'.val (prodO (p.terms.map (entryVal ρ))) = _
      rw [hv u y hu (by rw [hcv, hy]), hv', mulO_some]
      congr 1; ring
  | none =>
    rw [hc] at h
    simp only at h
    split at h
    · rename_i b e
      obtain ⟨hb, he⟩ := good_pow.1 ht
      obtain ⟨hq, hv⟩ := insertPower_ok hK hp hb he h
      exact ⟨hq, fun hl z hz => hv hl z (by rw [← eval_pow]; exact hz)⟩
    · rename_i x
      have hx : Good x := good_fn.1 ht x (by simp)
      obtain ⟨hq, hv⟩ := insertPower_ok hK hp (good_const _) hx h
      refine ⟨hq, fun hl z hz => hv hl z ?_⟩
      have hz : mulO (p.val ρ) (eval ρ (.fn .exp [x])) = some z := hz
      rw [eval_exp, mulO_eq_some] at hz
      obtain ⟨u, v, hu, hv', rfl⟩ := hz
      cases hw : eval ρ x with
      | none => rw [hw] at hv'; cases hv'
      | some w =>
        rw [hw] at hv'; cases hv'
        have hne : ((Real.exp 1 : ℝ) : ℂ) ≠ 0 := by exact_mod_cast (Real.exp_pos 1).ne'
        have hp := powVal_of_ne hne w
        rw [eval_const, powO_some, SymConst.val, hp, hu, mulO_some, powVal_euler hp]
    · obtain ⟨hq, hv⟩ := insertPower_ok hK hp ht good_one h
      refine ⟨hq, fun hl z hz => hv hl z ?_⟩
      rw [eval_int, Int.cast_one]
      rw [mulO_eq_some] at hz ⊢
      obtain ⟨u, v, hu, hv', rfl⟩ := hz
      exact ⟨u, v, hu, by rw [hv', powO_some, powVal_one], rfl⟩

theorem mulTerms_ok {lic : Lic F} {ρ : Env F} {K : Ctors F} (hK : Sound lic ρ K) {ts : List (Expr F)} {p q : MulParts F} (hp : p.Fine)
    (ht : ∀ t ∈ ts, Good t) (h : foldRes (mulTerm K lic) p ts = .ok q) :
    q.Fine ∧ (lic.TrueAt ρ → ∀ z, mulO (p.val ρ) (prodO (ts.map (eval ρ))) = some z → q.val ρ = some z) := by
  induction ts generalizing p with
  | nil =>
    simp only [foldRes, Except.ok.injEq] at h; subst h
    exact ⟨hp, fun _ z hz => by simpa using hz⟩
  | cons t ts ih =>
    unfold foldRes at h
    cases ha : mulTerm K lic p t with
    | error e => rw [ha] at h; simp at h
    | ok p1 =>
      rw [ha] at h
      obtain ⟨hf1, hv1⟩ := mulTerm_ok hK hp (ht t (by simp)) ha
      obtain ⟨hf2, hv2⟩ := ih hf1 (fun u hu => ht u (by simp [hu])) h
      refine ⟨hf2, fun hl z hz => hv2 hl z ?_⟩
      rw [List.map_cons, prodO_cons, ← mulO_assoc, mulO_eq_some] at hz
      obtain ⟨x, y, hx, hy, rfl⟩ := hz
      rw [hv1 hl x hx, hy]; rfl

theorem mulVisit_ok {lic : Lic F} {ρ : Env F} {K : Ctors F} (hK : Sound lic ρ K) {p q : MulParts F} {t : Expr F} (hp : p.Fine) (ht : Good t)
    (h : mulVisit K lic p t = .ok q) :
    q.Fine ∧ (lic.TrueAt ρ → ∀ z, mulO (p.val ρ) (eval ρ t) = some z → q.val ρ = some z) := by
  obtain ⟨hq, hv⟩ := mulTerms_ok hK hp (flatMul_good t ht) h
  exact ⟨hq, fun hl z hz => hv hl z (by rw [flatMul_prod]; exact hz)⟩

theorem mulVisits_ok {lic : Lic F} {ρ : Env F} {K : Ctors F} (hK : Sound lic ρ K) {ts : List (Expr F)} {p q : MulParts F} (hp : p.Fine)
    (ht : ∀ t ∈ ts, Good t) (h : foldRes (mulVisit K lic) p ts = .ok q) :
    q.Fine ∧ (lic.TrueAt ρ → ∀ z, mulO (p.val ρ) (prodO (ts.map (eval ρ))) = some z → q.val ρ = some z) := by
  induction ts generalizing p with
  | nil =>
    simp only [foldRes, Except.ok.injEq] at h; subst h
    exact ⟨hp, fun _ z hz => by simpa using hz⟩
  | cons t ts ih =>
    unfold foldRes at h
    cases ha : mulVisit K lic p t with
    | error e => rw [ha] at h; simp at h
    | ok p1 =>
      rw [ha] at h
      obtain ⟨hf1, hv1⟩ := mulVisit_ok hK hp (ht t (by simp)) ha
      obtain ⟨hf2, hv2⟩ := ih hf1 (fun u hu => ht u (by simp [hu])) h
      refine ⟨hf2, fun hl z hz => hv2 hl z ?_⟩
      rw [List.map_cons, prodO_cons, ← mulO_assoc, mulO_eq_some] at hz
      obtain ⟨x, y, hx, hy, rfl⟩ := hz
      rw [hv1 hl x hx, hy]; rfl

/-- The state of the loop of `create_multiplication` as the code makes it. -/
def StFine (st : CreateSt F) : Prop := st.1.Fine ∧ ∀ t ∈ st.2, Good t ∧ isNumeric t = false

/-- The value of the state of the loop. -/
noncomputable def stValue (ρ : Env F) (st : CreateSt F) : Option ℂ := mulO st.1.val (prodO (st.2.map (eval ρ)))

theorem numericOf_ok {c : Expr F} (hg : Good c) (hn : isNumeric c = true) : ∃ k, numericOf c = some k ∧ k.Fine ∧ ∀ ρ : Env F, k.val = eval ρ c := by
  rcases isNumeric_cases hn with ⟨n, rfl⟩ | ⟨r, rfl⟩ | ⟨f, rfl⟩
  · exact ⟨.int n, rfl, good_int.1 hg, fun ρ => by simp [Coeff.val]⟩
  · exact ⟨.rat r, rfl, (good_rat.1 hg).1, fun ρ => by simp [Coeff.val]⟩
  · exact ⟨.flt f, rfl, trivial, fun ρ => by rw [eval_flt]; rfl⟩

theorem collectPower_ok {ρ : Env F} {st st' : CreateSt F} {pw : Expr F} (hst : StFine st) (hg : Good pw) (h : collectPower st pw = .ok st') :
    StFine st' ∧ ∀ z, mulO (stValue ρ st) (eval ρ pw) = some z → stValue ρ st' = some z := by
  unfold collectPower at h
  by_cases hc : hasNumericCoeff pw = true
  · rw [if_pos hc] at h
    obtain ⟨hg1, hg2, hn1, hn2, hn3, hval⟩ := asCoeffMul_ok hg
    obtain ⟨k, hk, hkf, hkv⟩ := numericOf_ok hg1 hn1
    rw [hk] at h
    simp only at h
    cases ha : mulCoeff st.1 k with
    | error e => rw [ha] at h; simp at h
    | ok c' =>
      rw [ha] at h
      simp only [Except.ok.injEq] at h
      subst h
      obtain ⟨hf, hv⟩ := mulCoeff_ok hst.1 hkf ha
      have hcoef : ∀ z, mulO (stValue ρ st) (eval ρ pw) = some z → ∃ x y u, c'.val = some x ∧ prodO (st.2.map (eval ρ)) = some y ∧
          eval ρ (asCoeffMul pw).2 = some u ∧ z = x * (y * u) := by
        intro z hz
        rw [← hval ρ, stValue, mulO_eq_some] at hz
        obtain ⟨a, b, ha, hb, rfl⟩ := hz
        rw [mulO_eq_some] at ha hb
        obtain ⟨a1, a2, ha1, ha2, rfl⟩ := ha
        obtain ⟨b1, b2, hb1, hb2, rfl⟩ := hb
        exact ⟨a1 * b1, a2, b2, hv a1 b1 ha1 (by rw [hkv ρ, hb1]), ha2, hb2, by ring⟩
      by_cases h1 : isInt 1 (asCoeffMul pw).2 = true
      · rw [if_pos h1]
        refine ⟨⟨hf, hst.2⟩, fun z hz => ?_⟩
        obtain ⟨x, y, u, hx, hy, hu, rfl⟩ := hcoef z hz
        rw [isInt_iff.1 h1, eval_int] at hu
        cases hu
        rw [stValue, hx, hy, mulO_some]; simp
      · rw [if_neg h1]
        refine ⟨⟨hf, ?_⟩, fun z hz => ?_⟩
        · intro t ht
          rw [List.mem_append, List.mem_singleton] at ht
          rcases ht with ht | rfl
          · exact hst.2 t ht
          · refine ⟨hg2, ?_⟩
            cases hnp : isNumeric pw with
            | false => exact hn2 hnp
            | true => rw [hn3 hnp] at h1; exact absurd (isInt_iff.2 rfl) h1
        · obtain ⟨x, y, u, hx, hy, hu, rfl⟩ := hcoef z hz
          rw [stValue, hx, List.map_append, prodO_append, hy, List.map_singleton, prodO_cons, prodO_nil, mulO_one, hu]; rfl
  · rw [if_neg hc] at h
    simp only [Except.ok.injEq] at h
    subst h
    refine ⟨⟨hst.1, ?_⟩, fun z hz => ?_⟩
    · intro t ht
      rw [List.mem_append, List.mem_singleton] at ht
      rcases ht with ht | rfl
      · exact hst.2 t ht
      · refine ⟨hg, ?_⟩
        by_contra hn
        rw [Bool.not_eq_false] at hn
        rcases isNumeric_cases hn with ⟨n, rfl⟩ | ⟨r, rfl⟩ | ⟨f, rfl⟩ <;> exact hc rfl
    · rw [stValue, List.map_append, prodO_append, ← mulO_assoc, List.map_singleton, prodO_cons, prodO_nil, mulO_one]
      exact hz

theorem createSteps_ok {lic : Lic F} {ρ : Env F} {K : Ctors F} (hK : Sound lic ρ K) {l : List (Expr F × Expr F)} {st st' : CreateSt F}
    (hst : StFine st) (hl : ∀ be ∈ l, Good be.1 ∧ Good be.2) (h : foldRes (createStep K) st l = .ok st') :
    StFine st' ∧ (lic.TrueAt ρ → ∀ z, mulO (stValue ρ st) (prodO (l.map (entryVal ρ))) = some z → stValue ρ st' = some z) := by
  induction l generalizing st with
  | nil =>
    simp only [foldRes, Except.ok.injEq] at h; subst h
    exact ⟨hst, fun _ z hz => by simpa using hz⟩
  | cons be l ih =>
    unfold foldRes at h
    cases ha : createStep K st be with
    | error e => rw [ha] at h; simp at h
    | ok st1 =>
      rw [ha] at h
      unfold createStep at ha
      cases hp : K.pow be.1 be.2 with
      | error e => rw [hp] at ha; simp at ha
      | ok pw =>
        rw [hp] at ha
        obtain ⟨hb, he⟩ := hl be (by simp)
        obtain ⟨hgp, hvp⟩ := hK.pow _ _ _ hb he hp
        obtain ⟨hf1, hv1⟩ := collectPower_ok (ρ := ρ) hst hgp ha
        obtain ⟨hf2, hv2⟩ := ih hf1 (fun x hx => hl x (by simp [hx])) h
        refine ⟨hf2, fun hlt z hz => hv2 hlt z ?_⟩
        rw [List.map_cons, prodO_cons, ← mulO_assoc, mulO_eq_some] at hz
        obtain ⟨x, y, hx, hy, rfl⟩ := hz
        rw [mulO_eq_some] at hx
        obtain ⟨a, b, ha, hb, rfl⟩ := hx
        rw [hv1 (a * b) (by rw [ha, hvp hlt b hb]; rfl), hy]; rfl

theorem mulIntoAdd_ok {lic : Lic F} {ρ : Env F} {K : Ctors F} (hK : Sound lic ρ K) {ts : List (Expr F)} {c r : Expr F} (hg : ∀ t ∈ ts, Good t)
    (hc : Good c) (h : mulIntoAdd K ts c = .ok r) :
    Good r ∧ (lic.TrueAt ρ → ∀ z, mulO (sumO (ts.map (eval ρ))) (eval ρ c) = some z → eval ρ r = some z) := by
  unfold mulIntoAdd at h
  cases hm : mapRes (fun t => K.mul [t, c]) ts with
  | error e => rw [hm] at h; simp at h
  | ok rs =>
    rw [hm] at h
    simp only at h
    have hall : ∀ {ts rs : List (Expr F)}, (∀ t ∈ ts, Good t) → List.Forall₂ (fun t p => K.mul [t, c] = .ok p) ts rs →
        (∀ t ∈ rs, Good t) ∧ (lic.TrueAt ρ → ∀ z, mulO (sumO (ts.map (eval ρ))) (eval ρ c) = some z → sumO (rs.map (eval ρ)) = some z) := by
      intro ts rs hg h
      induction h with
      | nil =>
        refine ⟨by simp, fun _ z hz => ?_⟩
        rw [List.map_nil, sumO_nil, mulO_eq_some] at hz
        obtain ⟨_, y, ⟨⟩, _, rfl⟩ := hz
        simp
      | cons hab _ ih =>
        obtain ⟨hgr, hv⟩ := hK.mul _ _ (by simp [hg _ (List.mem_cons_self), hc]) hab
        obtain ⟨hgs, hvs⟩ := ih (fun t ht => hg t (by simp [ht]))
        refine ⟨by simpa [hgr] using hgs, fun hl z hz => ?_⟩
        rw [List.map_cons, sumO_cons, mulO_eq_some] at hz
        obtain ⟨x, y, hx, hy, rfl⟩ := hz
        rw [addO_eq_some] at hx
        obtain ⟨u, v, hu, hv', rfl⟩ := hx
        rw [List.map_cons, sumO_cons, hv hl (u * y) (by simp only [List.map_cons, List.map_nil, prodO_cons, prodO_nil, mulO_one]; rw [hu, hy, mulO_some]),
          hvs hl (v * y) (by rw [hv', hy, mulO_some]), addO_some, add_mul]
    obtain ⟨hgs, hvs⟩ := hall hg (mapRes_ok hm)
    obtain ⟨hgr, hvr⟩ := hK.add _ _ hgs h
    exact ⟨hgr, fun hl z hz => hvr hl z (hvs hl z hz)⟩

theorem filter_numeric_nil {args : List (Expr F)} (h : ∀ t ∈ args, isNumeric t = false) : args.filter isNumeric = [] := by
  rw [List.filter_eq_nil_iff]; intro a ha; rw [h a ha]; decide

theorem finishProduct_ok {lic : Lic F} {ρ : Env F} {K : Ctors F} (hK : Sound lic ρ K) {c r : Expr F} {args : List (Expr F)} (hc : Good c)
    (hg : ∀ t ∈ args, Good t ∧ isNumeric t = false) (h : finishProduct K c args = .ok r) :
    Good r ∧ (lic.TrueAt ρ → ∀ z, mulO (eval ρ c) (prodO (args.map (eval ρ))) = some z → eval ρ r = some z) := by
  unfold finishProduct at h
  by_cases h0 : (isInt 0 c || isUndef c) = true
  · rw [if_pos h0] at h
    simp only [Except.ok.injEq] at h; subst h
    refine ⟨hc, fun _ z hz => ?_⟩
    rw [mulO_eq_some] at hz
    obtain ⟨x, y, hx, _, rfl⟩ := hz
    rw [Bool.or_eq_true] at h0
    rcases h0 with h0 | h0
    · rw [isInt_iff.1 h0, eval_int] at hx ⊢
      cases hx; simp
    · rw [isUndef_iff.1 h0, eval_undef] at hx; cases hx
  · rw [if_neg h0] at h
    have hnil := filter_numeric_nil (fun t ht => (hg t ht).2)
    split at h
    · rename_i ts _
      have hga : Good (.add ts : Expr F) := (hg _ (by simp)).1
      obtain ⟨hgr, hv⟩ := mulIntoAdd_ok hK (good_add.1 hga) hc h
      refine ⟨hgr, fun hl z hz => hv hl z ?_⟩
      have hz : mulO (eval ρ c) (prodO ([.add ts].map (eval ρ))) = some z := hz
      rw [mulO_comm, List.map_singleton, prodO_cons, prodO_nil, mulO_one, eval_add] at hz
      exact hz
    · rename_i h1
      simp only [Except.ok.injEq] at h; subst h
      refine ⟨good_maybeNewMul (fun t ht => (hg t ht).1) (by rw [hnil]; simp), fun _ z hz => ?_⟩
      rw [isInt_iff.1 h1, eval_int, Int.cast_one, one_mulO] at hz
      rw [eval_maybeNewMul]; exact hz
    · simp only [Except.ok.injEq] at h; subst h
      refine ⟨good_maybeNewMul ?_ ?_, fun _ z hz => ?_⟩
      · intro t ht
        rw [List.mem_append, List.mem_singleton] at ht
        rcases ht with ht | rfl
        · exact (hg t ht).1
        · exact hc
      · rw [List.filter_append, hnil, List.nil_append]
        exact List.length_filter_le _ _
      · rw [eval_maybeNewMul, List.map_append, prodO_append, List.map_singleton, prodO_cons, prodO_nil, mulO_one, mulO_comm]; exact hz

theorem createProduct_ok {lic : Lic F} {ρ : Env F} {K : Ctors F} (hK : Sound lic ρ K) {p : MulParts F} {r : Expr F} (hp : p.Fine)
    (h : createProduct K p = .ok r) : Good r ∧ (lic.TrueAt ρ → ∀ z, p.val ρ = some z → eval ρ r = some z) := by
  unfold createProduct at h
  cases hf : foldRes (createStep K) (p.coeff, []) (p.terms.filter (fun be => !isInt 0 be.2)) with
  | error e => rw [hf] at h; simp at h
  | ok st =>
    rw [hf] at h
    simp only at h
    obtain ⟨hst, hv⟩ := createSteps_ok hK (st := (p.coeff, [])) ⟨hp.1, by simp⟩ (fun be hbe => hp.2 be (List.mem_filter.1 hbe).1) hf
    cases hc : st.1.toExpr with
    | error e => rw [hc] at h; simp at h
    | ok c =>
      rw [hc] at h
      simp only at h
      obtain ⟨hgc, _, hvc⟩ := toExpr_ok hst.1 hc ρ
      obtain ⟨hgr, hvr⟩ := finishProduct_ok hK hgc hst.2 h
      refine ⟨hgr, fun hl z hz => hvr hl z ?_⟩
      rw [MulParts.val_eq, mulO_eq_some] at hz
      obtain ⟨x, y, hx, hy, rfl⟩ := hz
      have hy' := prodO_filter (entryVal ρ) (fun be => !isInt 0 be.2) p.terms y (by
        intro be _ hbe v hv
        have h0 : isInt 0 be.2 = true := by simpa using hbe
        rw [entryVal, isInt_iff.1 h0, eval_int, powO_eq_some] at hv
        obtain ⟨a, _, _, ⟨⟩, hp⟩ := hv
        rw [Int.cast_zero] at hp
        exact powVal_zero hp) hy
      have h2 := hv hl (x * y) (by rw [stValue, List.map_nil, prodO_nil, mulO_one, hx, hy', mulO_some])
      rw [stValue, mulO_eq_some] at h2
      obtain ⟨u, v, hu, hv', e⟩ := h2
      rw [hvc u hu, hv', mulO_some, e]

theorem mulFine_one : (⟨.int 1, []⟩ : MulParts F).Fine := ⟨inI64_small (by decide) (by decide), by simp⟩

theorem productGeneral_ok {lic : Lic F} {ρ : Env F} {K : Ctors F} (hK : Sound lic ρ K) {ts : List (Expr F)} {r : Expr F} (hg : ∀ t ∈ ts, Good t)
    (h : productGeneral K lic ts = .ok r) : Good r ∧ (lic.TrueAt ρ → ∀ z, prodO (ts.map (eval ρ)) = some z → eval ρ r = some z) := by
  unfold productGeneral at h
  cases hf : foldRes (mulVisit K lic) ⟨.int 1, []⟩ ts with
  | error e => rw [hf] at h; simp at h
  | ok p =>
    rw [hf] at h
    obtain ⟨hp, hv⟩ := mulVisits_ok hK mulFine_one hg hf
    obtain ⟨hgr, hvr⟩ := createProduct_ok hK hp h
    refine ⟨hgr, fun hl z hz => hvr hl z (hv hl z ?_)⟩
    rw [MulParts.val]
    simpa [Coeff.val] using hz

theorem mulTwo_ok {lic : Lic F} {ρ : Env F} {K : Ctors F} (hK : Sound lic ρ K) {a b r : Expr F} (ha : Good a) (hb : Good b)
    (h : mulTwo K lic a b = .ok r) : Good r ∧ (lic.TrueAt ρ → ∀ z, mulO (eval ρ a) (eval ρ b) = some z → eval ρ r = some z) := by
  have gen : ∀ r, productGeneral K lic [a, b] = .ok r →
      Good r ∧ (lic.TrueAt ρ → ∀ z, mulO (eval ρ a) (eval ρ b) = some z → eval ρ r = some z) := by
    intro r hr
    obtain ⟨hgr, hv⟩ := productGeneral_ok hK (by simp [ha, hb]) hr
    exact ⟨hgr, fun hl z hz => hv hl z (by simpa [prodO_cons] using hz)⟩
  unfold mulTwo at h
  split at h
  · rename_i ts
    split at h
    · obtain ⟨hgr, hv⟩ := mulIntoAdd_ok hK (good_add.1 ha) hb h
      exact ⟨hgr, fun hl z hz => hv hl z (by rw [← eval_add]; exact hz)⟩
    · exact gen r h
  · rename_i ts _
    split at h
    · obtain ⟨hgr, hv⟩ := mulIntoAdd_ok hK (good_add.1 hb) ha h
      exact ⟨hgr, fun hl z hz => hv hl z (by rw [← eval_add, mulO_comm]; exact hz)⟩
    · exact gen r h
  · exact gen r h

theorem mulFrom_ok {lic : Lic F} {ρ : Env F} {K : Ctors F} (hK : Sound lic ρ K) {ts : List (Expr F)} {r : Expr F} (hg : ∀ t ∈ ts, Good t)
    (h : mulFrom K lic ts = .ok r) : Good r ∧ (lic.TrueAt ρ → ∀ z, prodO (ts.map (eval ρ)) = some z → eval ρ r = some z) := by
  rcases ts with _ | ⟨a, _ | ⟨b, _ | ⟨c, ts⟩⟩⟩
  · simp [mulFrom] at h
  · simp only [mulFrom, Except.ok.injEq] at h; subst h
    exact ⟨hg _ (by simp), fun _ z hz => by simpa [prodO_cons] using hz⟩
  · obtain ⟨hgr, hv⟩ := mulTwo_ok hK (hg a (by simp)) (hg b (by simp)) h
    exact ⟨hgr, fun hl z hz => hv hl z (by simpa [prodO_cons] using hz)⟩
  · exact productGeneral_ok hK hg h

/-! ### All constructors -/

theorem step_sound {lic : Lic F} {ρ : Env F} {K : Ctors F} (hK : Sound lic ρ K) : Sound lic ρ (step lic K) where
  add _ _ hg h := addFrom_ok hK hg h
  mul _ _ hg h := mulFrom_ok hK hg h
  pow _ _ _ hb he h := powCreate_ok hK hb he h
  visit _ _ _ hp ht h := mulVisit_ok hK hp ht h

/-- The constructors are sound at every stack depth. -/
theorem ctors_sound (lic : Lic F) (ρ : Env F) : ∀ n, Sound lic ρ (ctors lic n)
  | 0 => ⟨by intro _ _ _ h; simp [ctors] at h, by intro _ _ _ h; simp [ctors] at h, by intro _ _ _ _ _ h; simp [ctors] at h,
      by intro _ _ _ _ _ h; simp [ctors] at h⟩
  | n + 1 => step_sound (ctors_sound lic ρ n)

end Wf.Sym
