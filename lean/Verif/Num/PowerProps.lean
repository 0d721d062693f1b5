import Verif.Num.PowerLemmas

/-!
# C09: powers of numeric constants keep their value

`Complex` powers are principal values (`x ^ y = exp (y * log x)`).
-/

namespace Wf

/-- The complex number an operand of the returned product denotes. -/
noncomputable def PowOperand.val : PowOperand → ℂ
  | .coeff r => ((r.val : ℚ) : ℂ)
  | .imag => Complex.I
  | .pow b e => (b : ℂ) ^ (((e.val : ℚ) : ℂ))

/-- The result denotes the complex number `z` (complex infinity and undefined denote no number). -/
def NumPow.Denotes : NumPow → ℂ → Prop
  | .num r, z => r.Canonical ∧ ((r.val : ℚ) : ℂ) = z
  | .prod ops, z => (ops.map PowOperand.val).prod = z
  | .zoo, _ => False
  | .undef, _ => False

/-- Rational to an integer power: exact in canonical form; zero bases are classified; the only failures are raised errors
and the most negative integer reaching `std::gcd`. -/
theorem C09_rational_to_integer (base : RatC) (exp : Int) (hb : base.Canonical) (he : InI64 exp) (res : NumPow)
    (h : powRatInt base exp = .ok res) :
    (base.val = 0 ∧ exp < 0 ∧ res = .zoo) ∨ (base.val = 0 ∧ exp = 0 ∧ res = .undef) ∨
    ((base.val ≠ 0 ∨ 0 < exp) ∧ ∃ r, res = .num r ∧ r.Canonical ∧ r.val = base.val ^ exp) := by
  unfold powRatInt at h
  by_cases h1 : base.n = 0 ∧ exp < 0
  · rw [if_pos h1] at h
    simp only [Except.ok.injEq] at h
    exact Or.inl ⟨hb.val_eq_zero.mpr h1.1, h1.2, h.symm⟩
  rw [if_neg h1] at h
  by_cases h2 : base.n = 0 ∧ exp = 0
  · rw [if_pos h2] at h
    simp only [Except.ok.injEq] at h
    exact Or.inr (Or.inl ⟨hb.val_eq_zero.mpr h2.1, h2.2, h.symm⟩)
  · rw [if_neg h2] at h
    right; right
    rw [bind_ok_iff] at h
    obtain ⟨a, ha, h⟩ := h
    rw [bind_ok_iff] at h
    obtain ⟨e, hee, h⟩ := h
    rw [bind_ok_iff] at h
    obtain ⟨n, hn, h⟩ := h
    rw [bind_ok_iff] at h
    obtain ⟨d, hd, h⟩ := h
    obtain ⟨hav, _⟩ := cabs_ok he ha
    have hev : (e : Int) = |exp| := by
      unfold cToU64 at hee
      split_ifs at hee with h3
      simp only [Except.ok.injEq] at hee
      omega
    obtain ⟨hnv, hn64⟩ := integerPower_ok hb.1 hn
    obtain ⟨hdv, hd64⟩ := integerPower_ok hb.2.1 hd
    have hdpos : 0 < d := by rw [hdv]; exact pow_pos hb.2.2.1 _
    have hbd := hb.d_ne
    split_ifs at h with h3
    · rw [bind_ok_iff] at h
      obtain ⟨r, hr, h⟩ := h
      simp only [Res.pure_eq, Except.ok.injEq] at h
      obtain ⟨hrc, hrv⟩ := ratMk_ok hn64 hd64 hdpos.ne' hr
      refine ⟨?_, r, h.symm, hrc, ?_⟩
      · by_cases h0 : base.n = 0
        · right; have : exp ≠ 0 := fun hz => h2 ⟨h0, hz⟩; omega
        · left; exact fun hz => h0 (hb.val_eq_zero.mp hz)
      · have e1 : exp = (e : Int) := by rw [hev, abs_of_nonneg h3]
        rw [hrv, hnv, hdv, e1, zpow_natCast, RatC.val, div_pow]
        push_cast; rfl
    · have h0 : base.n ≠ 0 := fun hz => h1 ⟨hz, by omega⟩
      rw [bind_ok_iff] at h
      obtain ⟨r, hr, h⟩ := h
      simp only [Res.pure_eq, Except.ok.injEq] at h
      have hn0 : n ≠ 0 := by rw [hnv]; exact pow_ne_zero _ h0
      obtain ⟨hrc, hrv⟩ := ratMk_ok hd64 hn64 hn0 hr
      refine ⟨Or.inl (fun hz => h0 (hb.val_eq_zero.mp hz)), r, h.symm, hrc, ?_⟩
      have e1 : exp = -(e : Int) := by rw [hev, abs_of_neg (by omega)]; ring
      rw [hrv, hnv, hdv, e1, zpow_neg, zpow_natCast, RatC.val, div_pow, inv_div]
      push_cast; rfl

/-- Integer to an integer power. -/
theorem C09_integer_to_integer (base exp : Int) (hb : InI64 base) (he : InI64 exp) (res : NumPow)
    (h : powIntInt base exp = .ok res) :
    (base = 0 ∧ exp < 0 ∧ res = .zoo) ∨ (base = 0 ∧ exp = 0 ∧ res = .undef) ∨
    ((base ≠ 0 ∨ 0 < exp) ∧ ∃ r, res = .num r ∧ r.Canonical ∧ r.val = (base : ℚ) ^ exp) := by
  unfold powIntInt at h
  split_ifs at h with h1 h2 h3
  · simp only [Except.ok.injEq] at h
    exact Or.inl ⟨h2, h1, h.symm⟩
  · right; right
    rw [bind_ok_iff] at h
    obtain ⟨b, hbm, h⟩ := h
    rw [bind_ok_iff] at h
    obtain ⟨e, hem, h⟩ := h
    obtain ⟨hbc, hbv⟩ := ratMk_ok (by decide) hb h2 hbm
    obtain ⟨hev, he64⟩ := cneg_ok he hem
    have hb0 : b.val ≠ 0 := by
      rw [hbv]; simp; exact h2
    rcases C09_rational_to_integer b e hbc he64 res h with ⟨h4, _⟩ | ⟨h4, _⟩ | ⟨_, r, hr, hrc, hrv⟩
    · exact absurd h4 hb0
    · exact absurd h4 hb0
    · refine ⟨Or.inl h2, r, hr, hrc, ?_⟩
      rw [hrv, hbv, hev]; simp
  · simp only [Except.ok.injEq] at h
    exact Or.inr (Or.inl ⟨h3.1, h3.2, h.symm⟩)
  · right; right
    rw [bind_ok_iff] at h
    obtain ⟨p, hp, h⟩ := h
    simp only [Res.pure_eq, Except.ok.injEq] at h
    obtain ⟨h4, hpv, hp64⟩ := integerPowerChecked_ok hb hp
    refine ⟨?_, ⟨p, 1⟩, h.symm, ⟨hp64, by show InI64 1; decide, by show (0:Int) < 1; decide, by simp⟩, ?_⟩
    · by_cases h0 : base = 0
      · right; have : exp ≠ 0 := fun hz => h3 ⟨h0, hz⟩; omega
      · exact Or.inl h0
    · have e1 : exp = ((exp.toNat : Nat) : Int) := (Int.toNat_of_nonneg h4).symm
      conv_rhs => rw [e1, zpow_natCast]
      rw [RatC.val, hpv]; push_cast; simp

/-! ### Integer to a rational power -/

theorem cpow_int_pos {b : Int} (hb : 0 < b) (x : ℝ) : (b : ℂ) ^ (x : ℂ) = (((b : ℝ) ^ x : ℝ) : ℂ) := by
  rw [Complex.ofReal_cpow (by exact_mod_cast hb.le)]
  simp

theorem cpow_int_neg {b : Int} (hb : b < 0) (x : ℝ) :
    (b : ℂ) ^ (x : ℂ) = ((((-b : Int) : ℝ) ^ x : ℝ) : ℂ) * Complex.exp (Real.pi * Complex.I * x) := by
  have h := Complex.ofReal_cpow_of_nonpos (x := (b : ℝ)) (by exact_mod_cast hb.le) (x : ℂ)
  have h2 := cpow_int_pos (b := -b) (by omega) x
  rw [← h2]
  push_cast at h ⊢
  exact h

/-- The complex value of the entries, for bases of either sign. -/
noncomputable def entriesC (es : List ExpEntry) : ℂ :=
  (es.map (fun e => (e.base : ℂ) ^ (((e.exponent : ℝ) / (e.den : ℝ) : ℝ) : ℂ))).prod

theorem entriesC_eq {es : List ExpEntry} (h : ∀ e ∈ es, e.Good) : entriesC es = ((entriesVal es : ℝ) : ℂ) := by
  induction es with
  | nil => simp [entriesC, entriesVal]
  | cons e es ih =>
    have hi := ih (fun x hx => h x (by simp [hx]))
    simp only [entriesC, entriesVal, List.map_cons, List.prod_cons] at hi ⊢
    rw [hi, cpow_int_pos (h e (by simp)).base_pos]
    push_cast
    rfl

theorem negateEntry_ok {frac : RatC} : ∀ {es m : List ExpEntry}, (∀ e ∈ es, e.Good) →
    negateEntry frac es = .ok (some m) →
    entriesC m = entriesC es * Complex.exp (Real.pi * Complex.I * ((frac.val : ℚ) : ℝ)) ∧
    (∀ e ∈ m, 0 < e.den ∧ InI64 e.den ∧ InI64 e.exponent) := by
  intro es
  induction es with
  | nil => intro m _ h; simp [negateEntry] at h
  | cons e es ih =>
    intro m hg h
    have hge := hg e (by simp)
    unfold negateEntry at h
    split_ifs at h with h1 h2
    · rw [bind_ok_iff] at h
      obtain ⟨b, hb, h⟩ := h
      simp only [Res.pure_eq, Except.ok.injEq, Option.some.injEq] at h
      obtain ⟨hbv, _⟩ := cmul_ok hge.base_fit (by decide) hb
      subst h
      constructor
      · simp only [entriesC, List.map_cons, List.prod_cons]
        have hp := hge.base_pos
        have e0 : b = -e.base := by rw [hbv]; ring
        have e1 : ((frac.val : ℚ) : ℝ) = (e.exponent : ℝ) / (e.den : ℝ) := by rw [ratCast_val, h1, h2]
        rw [e0, cpow_int_neg (by omega), cpow_int_pos hp, neg_neg, e1]
        ring
      · intro e' he'
        rcases List.mem_cons.mp he' with rfl | he'
        · exact ⟨hge.den_pos, hge.den_fit, hge.exp_fit⟩
        · have := hg e' (by simp [he']); exact ⟨this.den_pos, this.den_fit, this.exp_fit⟩
    · simp at h
    · rw [bind_ok_iff] at h
      obtain ⟨o, ho, h⟩ := h
      cases o with
      | none => simp at h
      | some r =>
        simp only [Res.pure_eq, Except.ok.injEq, Option.some.injEq] at h
        subst h
        obtain ⟨h3, h4⟩ := ih (fun x hx => hg x (by simp [hx])) ho
        constructor
        · simp only [entriesC, List.map_cons, List.prod_cons] at h3 ⊢
          rw [h3]; ring
        · intro e' he'
          rcases List.mem_cons.mp he' with rfl | he'
          · exact ⟨hge.den_pos, hge.den_fit, hge.exp_fit⟩
          · exact h4 e' he'

theorem entryOperands_ok : ∀ {es : List ExpEntry} {ops : List PowOperand},
    (∀ e ∈ es, 0 < e.den ∧ InI64 e.den ∧ InI64 e.exponent) → entryOperands es = .ok ops →
    (ops.map PowOperand.val).prod = entriesC es := by
  intro es
  induction es with
  | nil => intro ops _ h; simp [entryOperands] at h; subst h; simp [entriesC]
  | cons e es ih =>
    intro ops hg h
    unfold entryOperands at h
    rw [bind_ok_iff] at h
    obtain ⟨r, hr, h⟩ := h
    rw [bind_ok_iff] at h
    obtain ⟨rest, hrest, h⟩ := h
    simp only [Res.pure_eq, Except.ok.injEq] at h
    subst h
    obtain ⟨h1, h2, h3⟩ := hg e (by simp)
    obtain ⟨_, hrv⟩ := ratMk_ok h3 h2 h1.ne' hr
    have hi := ih (fun x hx => hg x (by simp [hx])) hrest
    simp only [entriesC, List.map_cons, List.prod_cons, PowOperand.val] at hi ⊢
    rw [hi, hrv]
    push_cast
    rfl

theorem exp_pi_split (x : ℚ) : Complex.exp (Real.pi * Complex.I * ((x : ℚ) : ℝ)) =
    (-1 : ℂ) ^ ⌊x⌋ * Complex.exp (Real.pi * Complex.I * ((Int.fract x : ℚ) : ℝ)) := by
  have h : ((x : ℚ) : ℝ) = (⌊x⌋ : ℝ) + ((Int.fract x : ℚ) : ℝ) := by
    exact_mod_cast (Int.floor_add_fract x).symm
  rw [h]
  push_cast
  rw [mul_add, Complex.exp_add, mul_comm ((Real.pi : ℂ) * Complex.I) ((⌊x⌋ : ℤ) : ℂ), Complex.exp_int_mul,
    Complex.exp_pi_mul_I]

theorem intRatSign_ok {base : Int} {exp : RatC} (hexp : exp.Canonical) {st : RatC × List ExpEntry} (hst : StGood st)
    {c : RatC} {m : List ExpEntry} {ops : List PowOperand} (h : intRatSign base exp st = .ok (c, m, ops)) :
    c.Canonical ∧ (∀ e ∈ m, 0 < e.den ∧ InI64 e.den ∧ InI64 e.exponent) ∧
    (ops.map PowOperand.val).prod * entriesC m * ((c.val : ℚ) : ℂ) =
      ((stVal st : ℝ) : ℂ) * (if base < 0 then Complex.exp (Real.pi * Complex.I * ((exp.val : ℚ) : ℝ)) else 1) := by
  have hweak : ∀ e ∈ st.2, 0 < e.den ∧ InI64 e.den ∧ InI64 e.exponent :=
    fun e he => ⟨(hst.entries e he).den_pos, (hst.entries e he).den_fit, (hst.entries e he).exp_fit⟩
  have hent := entriesC_eq hst.entries
  unfold intRatSign at h
  by_cases hneg : base < 0
  · rw [if_pos hneg, bind_ok_iff] at h
    obtain ⟨⟨ip, frac⟩, hfr, h⟩ := h
    simp only at h
    rw [bind_ok_iff] at h
    obtain ⟨c', hc, h⟩ := h
    obtain ⟨hfc, hipv, hfv, hip64⟩ := factorizeRationalExponent_ok hexp hfr
    have hcv : c'.Canonical ∧ ((c'.val : ℚ) : ℂ) = ((st.1.val : ℚ) : ℂ) * (-1 : ℂ) ^ ip := by
      by_cases hev : cIsEven ip = true
      · rw [if_pos hev] at hc
        simp only [Except.ok.injEq] at hc
        subst hc
        refine ⟨hst.coeff, ?_⟩
        have : Even ip := by
          obtain ⟨k, hk⟩ := (C01_is_even ip).mp hev
          exact ⟨k, by omega⟩
        rw [this.neg_one_zpow, mul_one]
      · rw [if_neg hev] at hc
        obtain ⟨h1, h2⟩ := ratMulInt_ok hst.coeff (by decide) hc
        refine ⟨h1, ?_⟩
        have : Odd ip := by
          rw [← Int.not_even_iff_odd]
          rintro ⟨k, hk⟩
          exact hev ((C01_is_even ip).mpr ⟨k, by omega⟩)
        rw [this.neg_one_zpow, h2]
        push_cast; ring
    rw [if_pos hneg, exp_pi_split, ← hipv, ← hfv]
    have hstv : ((stVal st : ℝ) : ℂ) = ((st.1.val : ℚ) : ℂ) * entriesC st.2 := by
      rw [hent]; simp [stVal]
    split_ifs at h with h1 h2
    · simp only [Res.pure_eq, Except.ok.injEq, Prod.mk.injEq] at h
      obtain ⟨rfl, rfl, rfl⟩ := h
      refine ⟨hcv.1, hweak, ?_⟩
      have hhalf : ((frac.val : ℚ) : ℝ) = 1 / 2 := by rw [h1]; simp [RatC.val]
      have hI : Complex.exp (Real.pi * Complex.I * ((frac.val : ℚ) : ℝ)) = Complex.I := by
        rw [hhalf]
        have e2 : (Real.pi : ℂ) * Complex.I * (((1 / 2 : ℝ)) : ℂ) = Real.pi / 2 * Complex.I := by push_cast; ring
        rw [e2, Complex.exp_pi_div_two_mul_I]
      rw [hI, hcv.2, hstv]
      simp [PowOperand.val]; ring
    · rw [bind_ok_iff] at h
      obtain ⟨o, ho, h⟩ := h
      cases o with
      | some m' =>
        simp only [Res.pure_eq, Except.ok.injEq, Prod.mk.injEq] at h
        obtain ⟨rfl, rfl, rfl⟩ := h
        obtain ⟨h3, h4⟩ := negateEntry_ok hst.entries ho
        refine ⟨hcv.1, h4, ?_⟩
        rw [h3, hcv.2, hstv]
        simp; ring
      | none =>
        simp only [Res.pure_eq, Except.ok.injEq, Prod.mk.injEq] at h
        obtain ⟨rfl, rfl, rfl⟩ := h
        refine ⟨hcv.1, hweak, ?_⟩
        have hm1 := cpow_int_neg (b := -1) (by decide) ((frac.val : ℚ) : ℝ)
        simp only [neg_neg, Int.cast_one, Real.one_rpow, Complex.ofReal_one, one_mul] at hm1
        have hcast : (((frac.val : ℚ) : ℝ) : ℂ) = ((frac.val : ℚ) : ℂ) := by push_cast; rfl
        rw [hcv.2, hstv]
        simp only [List.map_cons, List.map_nil, List.prod_cons, List.prod_nil, mul_one, PowOperand.val]
        rw [← hcast, hm1]
        ring
    · simp only [Res.pure_eq, Except.ok.injEq, Prod.mk.injEq] at h
      obtain ⟨rfl, rfl, rfl⟩ := h
      refine ⟨hcv.1, hweak, ?_⟩
      have h0 : frac.val = 0 := hfc.val_eq_zero.mpr (by omega)
      rw [hcv.2, hstv, h0]
      simp; ring
  · rw [if_neg hneg] at h
    simp only [Res.pure_eq, Except.ok.injEq, Prod.mk.injEq] at h
    obtain ⟨rfl, rfl, rfl⟩ := h
    refine ⟨hst.coeff, hweak, ?_⟩
    rw [if_neg hneg, hent]
    simp [stVal]; ring

/-- Integer to a rational power: zero bases are classified, and every closed form the library returns denotes the principal
value of the power. -/
theorem C09_integer_to_rational (base : Int) (exp : RatC) (hb : InI64 base) (he : exp.Canonical) (res : NumPow)
    (h : powIntRat base exp = .ok res) :
    (base = 0 ∧ exp.val < 0 ∧ res = .zoo) ∨ (base = 0 ∧ exp.val = 0 ∧ res = .undef) ∨
    ((base ≠ 0 ∨ 0 < exp.val) ∧ res.Denotes ((base : ℂ) ^ ((exp.val : ℚ) : ℂ))) := by
  unfold powIntRat at h
  rw [if_neg (by have := he.2.2.1; omega)] at h
  split_ifs at h with h1 h2 h3 h4
  · right; right
    simp only [Except.ok.injEq] at h
    subst h1 h
    refine ⟨Or.inl (by decide), canonical_one, ?_⟩
    simp [RatC.val]
  · simp only [Except.ok.injEq] at h
    exact Or.inr (Or.inl ⟨h2, he.val_eq_zero.mpr h3, h.symm⟩)
  · simp only [Except.ok.injEq] at h
    refine Or.inl ⟨h2, ?_, h.symm⟩
    by_contra hc
    have := he.val_nonneg.mp (not_lt.mp hc)
    omega
  · right; right
    simp only [Except.ok.injEq] at h
    subst h2 h
    have hpos : 0 < exp.val :=
      lt_of_le_of_ne (he.val_nonneg.mpr (by omega)) (fun hz => h3 (he.val_eq_zero.mp hz.symm))
    refine ⟨Or.inr hpos, ⟨by show InI64 0; decide, by show InI64 1; decide, by show (0:Int) < 1; decide, by simp⟩, ?_⟩
    have : ((exp.val : ℚ) : ℂ) ≠ 0 := by exact_mod_cast hpos.ne'
    simp [RatC.val, Complex.zero_cpow]
    rw [Complex.zero_cpow (by simpa [RatC.val] using this)]
  · right; right
    refine ⟨Or.inl h2, ?_⟩
    rw [bind_ok_iff] at h
    obtain ⟨a, ha, h⟩ := h
    rw [bind_ok_iff] at h
    obtain ⟨factors, hf, h⟩ := h
    rw [bind_ok_iff] at h
    obtain ⟨st, hst, h⟩ := h
    rw [bind_ok_iff] at h
    obtain ⟨⟨c, m, ops⟩, hsign, h⟩ := h
    simp only at h
    rw [bind_ok_iff] at h
    obtain ⟨es, hes, h⟩ := h
    obtain ⟨hav, ha64⟩ := cabs_ok hb ha
    have hapos : 0 < a := by rw [hav]; exact abs_pos.mpr h2
    -- the factors
    have hpf : IsPrimeFactorization factors a := by
      rcases C02_factorization_or_undefined a ha64 hapos.ne' (pos_ne_minI hapos) with ⟨_, _, hu⟩ | ⟨l, hl, hp⟩
      · rw [hf] at hu; simp at hu
      · rw [hf] at hl; simp only [Except.ok.injEq] at hl; rw [hl]; exact hp
    have hgood : ∀ f ∈ factors, 0 < f.base ∧ InI64 f.base ∧ InI64 f.exponent := by
      intro f hfm
      rcases hpf.primes f hfm with ⟨_, _, hn⟩ | ⟨p, hp, hbp⟩
      · omega
      · have hdvd : f.base ^ f.exponent ∣ a := by
          rw [← hpf.prod]
          exact List.dvd_prod (List.mem_map_of_mem hfm)
        have hle := Int.le_of_dvd hapos hdvd
        have hb2 : 2 ≤ f.base := by rw [hbp]; exact_mod_cast hp.two_le
        have hexp := hpf.exponents f hfm
        have hself : f.base ≤ f.base ^ f.exponent := le_self_pow₀ (by omega) (by omega)
        have h2e : (2 : Int) ^ f.exponent ≤ f.base ^ f.exponent := pow_le_pow_left₀ (by norm_num) hb2 _
        have hlt : (f.exponent : Int) < 2 ^ f.exponent := by exact_mod_cast Nat.lt_two_pow_self
        have ha' := (InI64_iff a).mp ha64
        refine ⟨by omega, ?_, ?_⟩ <;> rw [InI64_iff] <;> omega
    obtain ⟨hg, hv⟩ := intRatLoop_ok he factors (⟨1, 1⟩, []) st hgood
      ⟨canonical_one, by intro e he'; simp at he'⟩ hst
    rw [hpf.prod] at hv
    have hv' : stVal st = (a : ℝ) ^ ((exp.val : ℚ) : ℝ) := by
      rw [hv]; simp [stVal, entriesVal, RatC.val]
    obtain ⟨hcc, hm, hval⟩ := intRatSign_ok he hg hsign
    have hesv := entryOperands_ok hm hes
    have hcoef : (List.map PowOperand.val (if c.n = c.d then [] else [PowOperand.coeff c])).prod = ((c.val : ℚ) : ℂ) := by
      split_ifs with hone
      · have : c.val = 1 := by
          rw [RatC.val, hone]; exact div_self hcc.d_ne
        simp [this]
      · simp [PowOperand.val]
    by_cases hem : ops ++ es ++ (if c.n = c.d then [] else [PowOperand.coeff c]) = []
    · rw [if_pos hem] at h; simp at h
    rw [if_neg hem] at h
    simp only [Res.pure_eq, Except.ok.injEq] at h
    subst h
    show (List.map PowOperand.val _).prod = _
    rw [List.map_append, List.map_append, List.prod_append, List.prod_append, hcoef, hesv, hval, hv']
    have hcast : ((exp.val : ℚ) : ℂ) = (((exp.val : ℚ) : ℝ) : ℂ) := by push_cast; rfl
    rw [hcast]
    rcases lt_or_gt_of_ne h2 with hn | hp
    · rw [if_pos hn, cpow_int_neg hn]
      rw [hav, abs_of_neg hn]
    · rw [if_neg (by omega), cpow_int_pos hp, hav, abs_of_pos hp, mul_one]

/-- Splitting an exponent into integer part and proper fraction is the floor decomposition and never fails. -/
theorem C09_exponent_split (r : RatC) (h : r.Canonical) :
    ∃ f, factorizeRationalExponent r = .ok (⌊r.val⌋, f) ∧ f.Canonical ∧ f.val = Int.fract r.val := by
  obtain ⟨f, h1, h2, h3, _⟩ := factorizeRationalExponent_spec r h
  exact ⟨f, h1, h2, h3⟩

/-! ### Powers of the imaginary unit -/

/-- The complex number a result code stands for. -/
noncomputable def IPow.val : IPow → ℂ
  | .one => 1 | .negOne => -1 | .i => Complex.I | .negI => -Complex.I

theorem I_zpow_four (k : ℤ) : Complex.I ^ (4 * k) = 1 := by
  rw [zpow_mul]
  have : Complex.I ^ (4 : ℤ) = 1 := by exact_mod_cast Complex.I_pow_four
  rw [this, one_zpow]

theorem C09_imaginary_integer_power (exp : Int) : (imaginaryUnitPower exp).val = Complex.I ^ exp := by
  have hI : Complex.I ≠ 0 := Complex.I_ne_zero
  have h4 : exp = 4 * (exp / 4) + exp % 4 := by omega
  have hz : Complex.I ^ exp = Complex.I ^ (exp % 4) := by
    conv_lhs => rw [h4]
    rw [zpow_add₀ hI, I_zpow_four, one_mul]
  have hd := Int.mul_tdiv_add_tmod exp 2
  have ht : (exp.tmod 2).natAbs < 2 := by rw [Int.natAbs_tmod]; exact Nat.mod_lt _ (by decide)
  have hs1 : 0 ≤ exp → 0 ≤ exp.tmod 2 := fun h => Int.tmod_nonneg 2 h
  have hs2 : exp ≤ 0 → exp.tmod 2 ≤ 0 := by
    intro h
    have := Int.tmod_nonneg 2 (a := -exp) (by omega)
    rw [Int.neg_tmod] at this; omega
  rw [hz]
  unfold imaginaryUnitPower cIsEven
  simp only [beq_iff_eq]
  have h3 : Complex.I ^ (3 : ℤ) = -Complex.I := by exact_mod_cast Complex.I_pow_three
  have h2 : Complex.I ^ (2 : ℤ) = -1 := by exact_mod_cast Complex.I_sq
  split_ifs with c1 c2 c3 c4 c5
  · have : exp % 4 = 0 := by omega
    rw [this]; simp [IPow.val]
  · have : exp % 4 = 2 := by omega
    rw [this, h2]; rfl
  · have : exp % 4 = 1 := by omega
    rw [this]; simp [IPow.val]
  · have : exp % 4 = 3 := by omega
    rw [this, h3]; rfl
  · have : exp % 4 = 3 := by omega
    rw [this, h3]; rfl
  · have : exp % 4 = 1 := by omega
    rw [this]; simp [IPow.val]

/-- A rational power of the imaginary unit is rewritten to an equal one. -/
theorem C09_imaginary_rational_power (exp : RatC) (he : exp.Canonical) (res : IRatPow) (h : imagRat exp = .ok res) :
    (if res.negative then (-1 : ℂ) else 1) * Complex.I ^ ((res.exponent.val : ℚ) : ℂ) = Complex.I ^ ((exp.val : ℚ) : ℂ) := by
  have hI : Complex.I ≠ 0 := Complex.I_ne_zero
  unfold imagRat at h
  rw [bind_ok_iff] at h
  obtain ⟨⟨ip, frac⟩, hfr, h⟩ := h
  obtain ⟨hfc, hipv, hfv, hip64⟩ := factorizeRationalExponent_ok he hfr
  simp only at h
  have hsplit : ((exp.val : ℚ) : ℂ) = (ip : ℂ) + ((frac.val : ℚ) : ℂ) := by
    rw [hfv, hipv]
    have := (Int.floor_add_fract exp.val).symm
    exact_mod_cast this
  have hpow : Complex.I ^ ((exp.val : ℚ) : ℂ) = (imaginaryUnitPower ip).val * Complex.I ^ ((frac.val : ℚ) : ℂ) := by
    rw [hsplit, Complex.cpow_add _ _ hI, Complex.cpow_intCast, C09_imaginary_integer_power]
  by_cases hneg : frac.n < 0
  · rw [if_pos hneg] at h; simp at h
  rw [if_neg hneg] at h
  have hone : (⟨1, 1⟩ : RatC).val = 1 := by simp [RatC.val]
  have hmk : ratMk 1 1 = .ok ⟨1, 1⟩ := by decide
  rw [hpow]
  cases hip : imaginaryUnitPower ip with
  | one =>
    rw [hip] at h
    simp only [Res.pure_eq, Except.ok.injEq] at h
    subst h; simp [IPow.val]
  | negOne =>
    rw [hip] at h
    simp only [Res.pure_eq, Except.ok.injEq] at h
    subst h; simp [IPow.val]
  | i =>
    rw [hip] at h
    simp only at h
    split_ifs at h with h1
    · simp only [Res.pure_eq, Except.ok.injEq] at h
      subst h
      rw [← hip, ← hpow]; simp
    · rw [hmk] at h
      simp only [Res.bind_ok] at h
      rw [bind_ok_iff] at h
      obtain ⟨e, hee, h⟩ := h
      simp only [Res.pure_eq, Except.ok.injEq] at h
      obtain ⟨_, hev⟩ := ratAdd_ok hfc canonical_one hee
      subst h
      simp only [hev, hone, IPow.val]
      push_cast
      rw [Complex.cpow_add _ _ hI, Complex.cpow_one]
      simp; ring
  | negI =>
    rw [hip] at h
    simp only at h
    rw [hmk] at h
    simp only [Res.bind_ok] at h
    rw [bind_ok_iff] at h
    obtain ⟨e, hee, h⟩ := h
    simp only [Res.pure_eq, Except.ok.injEq] at h
    obtain ⟨_, hev⟩ := ratAdd_ok hfc canonical_one hee
    subst h
    simp only [hev, hone, IPow.val]
    push_cast
    rw [Complex.cpow_add _ _ hI, Complex.cpow_one]
    simp; ring

/-- Disagreement: inverting the most negative integer reaches `std::gcd` with an unrepresentable magnitude. -/
theorem C09_invert_most_negative_is_undefined : powIntInt minI (-1) = .error .ub := by decide

/-! Non-vacuity: the rules do return closed forms. -/
example : powIntInt (-2) (-3) = .ok (.num ⟨-1, 8⟩) := by decide +kernel
example : powIntRat (-12) ⟨3, 2⟩ = .ok (.prod [.imag, .pow 3 ⟨1, 2⟩, .coeff ⟨-24, 1⟩]) := by decide +kernel
example : powIntRat (-50) ⟨-1, 3⟩ = .ok (.prod [.pow (-1) ⟨2, 3⟩, .pow 20 ⟨1, 3⟩, .coeff ⟨-1, 10⟩]) := by decide +kernel
example : imagRat ⟨-5, 2⟩ = .ok ⟨false, ⟨3, 2⟩⟩ := by decide +kernel

end Wf
