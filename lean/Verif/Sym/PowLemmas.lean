import Verif.Sym.SumLemmas

/-! # Power laws on values, and operands of the numeric power rules -/

namespace Wf
open Complex

/-! ### Operands of the numeric power rules are well formed -/

/-- An operand the expression layer can hold. -/
def PowOperand.Fine : PowOperand → Prop
  | .coeff r => r.Canonical
  | .imag => True
  | .pow b r => InI64 b ∧ b ≠ 0 ∧ r.Canonical

/-- What is needed of an entry to make an operand of it. -/
def ExpEntry.Weak (e : ExpEntry) : Prop := InI64 e.base ∧ e.base ≠ 0 ∧ 0 < e.den ∧ InI64 e.den ∧ InI64 e.exponent

theorem ExpEntry.Good.weak {e : ExpEntry} (h : e.Good) : e.Weak := ⟨h.base_fit, h.base_pos.ne', h.den_pos, h.den_fit, h.exp_fit⟩

theorem negateEntry_weak {frac : RatC} : ∀ {es m : List ExpEntry}, (∀ e ∈ es, e.Good) → negateEntry frac es = .ok (some m) → ∀ e ∈ m, e.Weak := by
  intro es
  induction es with
  | nil => intro m _ h; simp [negateEntry] at h
  | cons e es ih =>
    intro m hg h
    have hge := hg e (by simp)
    unfold negateEntry at h
    split_ifs at h with h1 h2
    · rw [bind_ok_iff] at h
      obtain ⟨b, hb, h⟩ := h
      simp only [Res.pure_eq, Except.ok.injEq, Option.some.injEq] at h
      obtain ⟨hbv, hbi⟩ := cmul_ok hge.base_fit (by decide) hb
      subst h
      intro e' he'
      rcases List.mem_cons.mp he' with rfl | he'
      · have := hge.base_pos
        exact ⟨hbi, by show b ≠ 0; omega, hge.den_pos, hge.den_fit, hge.exp_fit⟩
      · exact (hg e' (by simp [he'])).weak
    · simp at h
    · rw [bind_ok_iff] at h
      obtain ⟨o, ho, h⟩ := h
      cases o with
      | none => simp at h
      | some r =>
        simp only [Res.pure_eq, Except.ok.injEq, Option.some.injEq] at h
        subst h
        intro e' he'
        rcases List.mem_cons.mp he' with rfl | he'
        · exact hge.weak
        · exact ih (fun x hx => hg x (by simp [hx])) ho e' he'

theorem entryOperands_fine : ∀ {es : List ExpEntry} {ops : List PowOperand}, (∀ e ∈ es, e.Weak) → entryOperands es = .ok ops → ∀ o ∈ ops, o.Fine := by
  intro es
  induction es with
  | nil => intro ops _ h; simp [entryOperands] at h; subst h; simp
  | cons e es ih =>
    intro ops hg h
    unfold entryOperands at h
    rw [bind_ok_iff] at h
    obtain ⟨r, hr, h⟩ := h
    rw [bind_ok_iff] at h
    obtain ⟨rest, hrest, h⟩ := h
    simp only [Res.pure_eq, Except.ok.injEq] at h
    subst h
    obtain ⟨h1, h2, h3, h4, h5⟩ := hg e (by simp)
    obtain ⟨hrc, _⟩ := ratMk_ok h5 h4 h3.ne' hr
    intro o ho
    rcases List.mem_cons.mp ho with rfl | ho
    · exact ⟨h1, h2, hrc⟩
    · exact ih (fun x hx => hg x (by simp [hx])) hrest o ho

theorem intRatSign_fine {base : Int} {exp : RatC} (hexp : exp.Canonical) {st : RatC × List ExpEntry} (hst : StGood st)
    {c : RatC} {m : List ExpEntry} {ops : List PowOperand} (h : intRatSign base exp st = .ok (c, m, ops)) :
    (∀ e ∈ m, e.Weak) ∧ ∀ o ∈ ops, o.Fine := by
  have hweak : ∀ e ∈ st.2, e.Weak := fun e he => (hst.entries e he).weak
  unfold intRatSign at h
  by_cases hneg : base < 0
  · rw [if_pos hneg, bind_ok_iff] at h
    obtain ⟨⟨ip, frac⟩, hfr, h⟩ := h
    simp only at h
    rw [bind_ok_iff] at h
    obtain ⟨c', hc, h⟩ := h
    obtain ⟨hfc, hipv, hfv, hip64⟩ := factorizeRationalExponent_ok hexp hfr
    split_ifs at h with h1 h2
    · simp only [Res.pure_eq, Except.ok.injEq, Prod.mk.injEq] at h
      obtain ⟨rfl, rfl, rfl⟩ := h
      exact ⟨hweak, by simp [PowOperand.Fine]⟩
    · rw [bind_ok_iff] at h
      obtain ⟨o, ho, h⟩ := h
      cases o with
      | some m' =>
        simp only [Res.pure_eq, Except.ok.injEq, Prod.mk.injEq] at h
        obtain ⟨rfl, rfl, rfl⟩ := h
        exact ⟨negateEntry_weak hst.entries ho, by simp⟩
      | none =>
        simp only [Res.pure_eq, Except.ok.injEq, Prod.mk.injEq] at h
        obtain ⟨rfl, rfl, rfl⟩ := h
        refine ⟨hweak, ?_⟩
        intro o ho
        rw [List.mem_singleton] at ho
        subst ho
        exact ⟨by decide, by decide, hfc⟩
    · simp only [Res.pure_eq, Except.ok.injEq, Prod.mk.injEq] at h
      obtain ⟨rfl, rfl, rfl⟩ := h
      exact ⟨hweak, by simp⟩
  · rw [if_neg hneg] at h
    simp only [Res.pure_eq, Except.ok.injEq, Prod.mk.injEq] at h
    obtain ⟨rfl, rfl, rfl⟩ := h
    exact ⟨hweak, by simp⟩

/-- The prime factors of a positive 64-bit number fit. -/
theorem factors_good {a : Int} (ha64 : InI64 a) (hapos : 0 < a) {factors : List PrimeFactor} (hf : computePrimeFactors a = .ok factors) :
    ∀ f ∈ factors, 0 < f.base ∧ InI64 f.base ∧ InI64 f.exponent := by
  have hpf : IsPrimeFactorization factors a := by
    rcases C02_factorization_or_undefined a ha64 hapos.ne' (pos_ne_minI hapos) with ⟨_, _, hu⟩ | ⟨l, hl, hp⟩
    · rw [hf] at hu; simp at hu
    · rw [hf] at hl; simp only [Except.ok.injEq] at hl; rw [hl]; exact hp
  intro f hfm
  rcases hpf.primes f hfm with ⟨_, _, hn⟩ | ⟨p, hp, hbp⟩
  · omega
  · have hdvd : f.base ^ f.exponent ∣ a := by
      rw [← hpf.prod]
      exact List.dvd_prod (List.mem_map_of_mem hfm)
    have hle := Int.le_of_dvd hapos hdvd
    have hb2 : 2 ≤ f.base := by rw [hbp]; exact_mod_cast hp.two_le
    have hexp := hpf.exponents f hfm
    have hself : f.base ≤ f.base ^ f.exponent := le_self_pow₀ (by omega) (by omega)
    have h2e : (2 : Int) ^ f.exponent ≤ f.base ^ f.exponent := pow_le_pow_left₀ (by norm_num) hb2 _
    have hlt : (f.exponent : Int) < 2 ^ f.exponent := by exact_mod_cast Nat.lt_two_pow_self
    have ha' := (InI64_iff a).mp ha64
    refine ⟨by omega, ?_, ?_⟩ <;> rw [InI64_iff] <;> omega

theorem powIntRat_fine {base : Int} {exp : RatC} (hb : InI64 base) (he : exp.Canonical) {ops : List PowOperand}
    (h : powIntRat base exp = .ok (.prod ops)) : ∀ o ∈ ops, o.Fine := by
  unfold powIntRat at h
  rw [if_neg (by have := he.2.2.1; omega)] at h
  split_ifs at h with h1 h2 h3 h4
  · simp at h
  · simp at h
  · simp at h
  · simp at h
  · rw [bind_ok_iff] at h
    obtain ⟨a, ha, h⟩ := h
    rw [bind_ok_iff] at h
    obtain ⟨factors, hf, h⟩ := h
    rw [bind_ok_iff] at h
    obtain ⟨st, hst, h⟩ := h
    rw [bind_ok_iff] at h
    obtain ⟨⟨c, m, ops'⟩, hsign, h⟩ := h
    simp only at h
    rw [bind_ok_iff] at h
    obtain ⟨es, hes, h⟩ := h
    obtain ⟨hav, ha64⟩ := cabs_ok hb ha
    have hapos : 0 < a := by rw [hav]; exact abs_pos.mpr h2
    obtain ⟨hg, _⟩ := intRatLoop_ok he factors (⟨1, 1⟩, []) st (factors_good ha64 hapos hf)
      ⟨canonical_one, by intro e he'; simp at he'⟩ hst
    obtain ⟨hcc, _, _⟩ := intRatSign_ok he hg hsign
    obtain ⟨hw, hops⟩ := intRatSign_fine he hg hsign
    by_cases hem : ops' ++ es ++ (if c.n = c.d then [] else [PowOperand.coeff c]) = []
    · rw [if_pos hem] at h; simp at h
    rw [if_neg hem] at h
    simp only [Res.pure_eq, Except.ok.injEq, NumPow.prod.injEq] at h
    subst h
    intro o ho
    rw [List.mem_append, List.mem_append] at ho
    rcases ho with (ho | ho) | ho
    · exact hops o ho
    · exact entryOperands_fine hw hes o ho
    · split at ho
      · simp at ho
      · rw [List.mem_singleton] at ho; subst ho; exact hcc

theorem imagRat_fine {exp : RatC} (he : exp.Canonical) {res : IRatPow} (h : imagRat exp = .ok res) : res.exponent.Canonical := by
  unfold imagRat at h
  rw [bind_ok_iff] at h
  obtain ⟨⟨ip, frac⟩, hfr, h⟩ := h
  obtain ⟨hfc, hipv, hfv, hip64⟩ := factorizeRationalExponent_ok he hfr
  simp only at h
  by_cases hneg : frac.n < 0
  · rw [if_pos hneg] at h; simp at h
  rw [if_neg hneg] at h
  have hmk : ratMk 1 1 = .ok ⟨1, 1⟩ := by decide
  cases hip : imaginaryUnitPower ip with
  | one =>
    rw [hip] at h
    simp only [Res.pure_eq, Except.ok.injEq] at h
    subst h; exact hfc
  | negOne =>
    rw [hip] at h
    simp only [Res.pure_eq, Except.ok.injEq] at h
    subst h; exact hfc
  | i =>
    rw [hip] at h
    simp only at h
    split_ifs at h with h1
    · simp only [Res.pure_eq, Except.ok.injEq] at h
      subst h; exact he
    · rw [hmk] at h
      simp only [Res.bind_ok] at h
      rw [bind_ok_iff] at h
      obtain ⟨e, hee, h⟩ := h
      simp only [Res.pure_eq, Except.ok.injEq] at h
      subst h; exact (ratAdd_ok hfc canonical_one hee).1
  | negI =>
    rw [hip] at h
    simp only at h
    rw [hmk] at h
    simp only [Res.bind_ok] at h
    rw [bind_ok_iff] at h
    obtain ⟨e, hee, h⟩ := h
    simp only [Res.pure_eq, Except.ok.injEq] at h
    subst h; exact (ratAdd_ok hfc canonical_one hee).1

theorem ratIsProper_ok {r : RatC} (hr : r.Canonical) {m : Bool} (h : ratIsProper r = .ok m) : m = true → |r.val| < 1 := by
  intro hm
  subst hm
  unfold ratIsProper noexcept at h
  cases ha : cabs r.n with
  | error e => rw [ha] at h; cases e <;> simp [bind, Except.bind] at h
  | ok a =>
    rw [ha] at h
    obtain ⟨hav, _⟩ := cabs_ok hr.1 ha
    have hlt : a < r.d := by simpa [bind, Except.bind, pure, Except.pure] using h
    have hd : (0 : ℚ) < r.d := by exact_mod_cast hr.2.2.1
    rw [RatC.val, abs_div, abs_of_pos hd, div_lt_one hd]
    rw [hav] at hlt
    exact_mod_cast hlt

end Wf

namespace Wf.Sym
open Complex

/-! ### Power laws -/

/-- A power with a real inner exponent of magnitude below one. -/
theorem powVal_nested_small {x v a z : ℂ} {w : ℝ} (hw : |w| < 1) (h1 : powVal x w = some a) (h2 : powVal a v = some z) : powVal x (w * v) = some z := by
  rcases powVal_cases h1 with ⟨hx, rfl⟩ | ⟨rfl, hw0, rfl⟩
  · have hne : x ^ (w : ℂ) ≠ 0 := by rw [cpow_def_of_ne_zero hx]; exact exp_ne_zero _
    rw [powVal_of_ne hne] at h2
    rw [powVal_of_ne hx, ← Option.some.inj h2]
    congr 1
    have him : (log x * (w : ℂ)).im = arg x * w := by rw [im_mul_ofReal, log_im]
    have hb : |arg x * w| < Real.pi := by
      rw [abs_mul]
      have h3 := abs_arg_le_pi x
      by_cases h0 : w = 0
      · rw [h0]; simp [Real.pi_pos]
      · have : 0 < |w| := abs_pos.2 h0
        nlinarith [Real.pi_pos, abs_nonneg (arg x)]
    apply cpow_mul
    · rw [him]; exact (abs_lt.1 hb).1
    · rw [him]; exact (abs_lt.1 hb).2.le
  · rcases powVal_cases h2 with ⟨h, _⟩ | ⟨_, hv, rfl⟩
    · exact absurd rfl h
    · apply powVal_zero_pos
      rw [re_ofReal_mul]
      exact mul_pos (by simpa using hw0) hv

/-- A power with an integer outer exponent. -/
theorem powVal_nested_int {x w a z : ℂ} {n : ℤ} (h1 : powVal x w = some a) (h2 : powVal a n = some z) : powVal x (w * n) = some z := by
  rcases powVal_cases h1 with ⟨hx, rfl⟩ | ⟨rfl, hw0, rfl⟩
  · have hne : x ^ w ≠ 0 := by rw [cpow_def_of_ne_zero hx]; exact exp_ne_zero _
    rw [powVal_of_ne hne] at h2
    rw [powVal_of_ne hx, ← Option.some.inj h2, cpow_intCast, ← cpow_mul_int]
  · rcases powVal_cases h2 with ⟨h, _⟩ | ⟨_, hv, rfl⟩
    · exact absurd rfl h
    · apply powVal_zero_pos
      have : w.re * (n : ℂ).re = (w * n).re := by simp
      rw [← this]
      exact mul_pos hw0 hv

/-- A power of a non-negative base with a real inner exponent. -/
theorem powVal_nested_nonneg {x w v a z : ℂ} (hx : x.im = 0) (hx0 : 0 ≤ x.re) (hw : w.im = 0)
    (h1 : powVal x w = some a) (h2 : powVal a v = some z) : powVal x (w * v) = some z := by
  obtain ⟨p, rfl⟩ : ∃ p : ℝ, w = p := ⟨w.re, by apply Complex.ext <;> simp [hw]⟩
  obtain ⟨q, rfl⟩ : ∃ q : ℝ, x = q := ⟨x.re, by apply Complex.ext <;> simp [hx]⟩
  rcases powVal_cases h1 with ⟨hx, rfl⟩ | ⟨h0, hw0, rfl⟩
  · have hne : (q : ℂ) ^ (p : ℂ) ≠ 0 := by rw [cpow_def_of_ne_zero hx]; exact exp_ne_zero _
    rw [powVal_of_ne hne] at h2
    rw [powVal_of_ne hx, ← Option.some.inj h2, cpow_mul_ofReal_nonneg (by simpa using hx0), ofReal_cpow (by simpa using hx0)]
  · rcases powVal_cases h2 with ⟨h, _⟩ | ⟨_, hv, rfl⟩
    · exact absurd rfl h
    · rw [h0]
      apply powVal_zero_pos
      rw [re_ofReal_mul]
      exact mul_pos (by simpa using hw0) hv

theorem powVal_one_base (w : ℂ) : powVal 1 w = some 1 := by rw [powVal_of_ne one_ne_zero, one_cpow]

/-- An integer power of a product. -/
theorem powVal_mul_int {x y z : ℂ} {n : ℤ} (h : powVal (x * y) n = some z) : ∃ a b, powVal x n = some a ∧ powVal y n = some b ∧ z = a * b := by
  rcases powVal_cases h with ⟨hne, rfl⟩ | ⟨h0, hn, rfl⟩
  · have hx : x ≠ 0 := fun h => hne (by rw [h, zero_mul])
    have hy : y ≠ 0 := fun h => hne (by rw [h, mul_zero])
    exact ⟨_, _, powVal_of_ne hx _, powVal_of_ne hy _, by rw [cpow_intCast, cpow_intCast, cpow_intCast, mul_zpow]⟩
  · rcases mul_eq_zero.1 h0 with rfl | rfl
    · by_cases hy : y = 0
      · subst hy; exact ⟨0, 0, powVal_zero_pos hn, powVal_zero_pos hn, by simp⟩
      · exact ⟨0, _, powVal_zero_pos hn, powVal_of_ne hy _, by simp⟩
    · by_cases hx : x = 0
      · subst hx; exact ⟨0, 0, powVal_zero_pos hn, powVal_zero_pos hn, by simp⟩
      · exact ⟨_, 0, powVal_of_ne hx _, powVal_zero_pos hn, by simp⟩

/-- A real power of a product with a non-negative factor. -/
theorem powVal_mul_nonneg {y z : ℂ} {x w : ℝ} (hx0 : 0 ≤ x) (h : powVal (x * y) w = some z) :
    ∃ a b, powVal x w = some a ∧ powVal y w = some b ∧ z = a * b := by
  rcases powVal_cases h with ⟨hne, rfl⟩ | ⟨h0, hn, rfl⟩
  · have hx : (x : ℂ) ≠ 0 := fun h => hne (by rw [h, zero_mul])
    have hy : y ≠ 0 := fun h => hne (by rw [h, mul_zero])
    refine ⟨_, _, powVal_of_ne hx _, powVal_of_ne hy _, ?_⟩
    have hxp : 0 < x := lt_of_le_of_ne hx0 (fun h => hx (by rw [← h]; simp))
    rw [cpow_def_of_ne_zero hne, cpow_def_of_ne_zero hx, cpow_def_of_ne_zero hy, ← exp_add, log_ofReal_mul hxp hy, ofReal_log hx0, add_mul]
  · rcases mul_eq_zero.1 h0 with h0 | rfl
    · rw [h0]
      by_cases hy : y = 0
      · subst hy; exact ⟨0, 0, powVal_zero_pos hn, powVal_zero_pos hn, by simp⟩
      · exact ⟨0, _, powVal_zero_pos hn, powVal_of_ne hy _, by simp⟩
    · by_cases hx : (x : ℂ) = 0
      · rw [hx]; exact ⟨0, 0, powVal_zero_pos hn, powVal_zero_pos hn, by simp⟩
      · exact ⟨_, 0, powVal_of_ne hx _, powVal_zero_pos hn, by simp⟩

/-- A power of an exponential. -/
theorem powVal_exp {w v z : ℂ} (hw : w.im = 0 ∨ ∃ n : ℤ, v = n) (h : powVal (exp w) v = some z) : z = exp (w * v) := by
  rw [powVal_of_ne (exp_ne_zero w)] at h
  rw [← Option.some.inj h]
  rcases hw with hw | ⟨n, rfl⟩
  · rw [cpow_def_of_ne_zero (exp_ne_zero w), log_exp (by rw [hw]; linarith [Real.pi_pos]) (by rw [hw]; exact Real.pi_pos.le)]
  · rw [cpow_intCast, mul_comm, exp_int_mul]

theorem powVal_euler {w z : ℂ} (h : powVal ((Real.exp 1 : ℝ) : ℂ) w = some z) : z = exp w := by
  rw [ofReal_exp, ofReal_one] at h
  rw [powVal_exp (Or.inl (by simp)) h, one_mul]

/-- A power of real numbers that is real. -/
theorem powVal_real {x y : ℝ} {z : ℂ} (h : powVal x y = some z) (hr : 0 ≤ x ∨ ∃ n : ℤ, y = n) :
    z = ((x ^ y : ℝ) : ℂ) ∧ (0 < x ∨ (x = 0 ∧ 0 < y) ∨ (x ≠ 0 ∧ ∃ n : ℤ, y = n)) := by
  rcases powVal_cases h with ⟨hx, rfl⟩ | ⟨hx, hy, rfl⟩
  · have hx' : x ≠ 0 := by simpa using hx
    rcases hr with hr | ⟨n, rfl⟩
    · exact ⟨(ofReal_cpow hr y).symm, Or.inl (lt_of_le_of_ne hr (Ne.symm hx'))⟩
    · refine ⟨?_, Or.inr (Or.inr ⟨hx', n, rfl⟩)⟩
      rw [Real.rpow_intCast]; push_cast
      rw [cpow_intCast]
  · have hx' : x = 0 := by simpa using hx
    have hy' : 0 < y := by simpa using hy
    subst hx'
    exact ⟨by rw [Real.zero_rpow hy'.ne']; simp, Or.inr (Or.inl ⟨rfl, hy'⟩)⟩

theorem prodO_some (l : List ℂ) : prodO (l.map some) = some l.prod := by
  induction l with
  | nil => rfl
  | cons a l ih => rw [List.map_cons, prodO_cons, ih, List.prod_cons]; rfl

end Wf.Sym
