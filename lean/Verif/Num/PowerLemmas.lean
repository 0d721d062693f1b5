import Verif.Num.PowerModel
import Verif.Num.RationalProps
import Verif.Num.IntegerUtilsProps
import Mathlib.Analysis.SpecialFunctions.Pow.Real
import Mathlib.Analysis.SpecialFunctions.Pow.Complex

/-! Helper lemmas for numeric powers. -/

namespace Wf

/-! ### What a successful operation returned -/

theorem cmul_ok {a b c : Int} (ha : InI64 a) (hb : InI64 b) (h : cmul a b = .ok c) : c = a * b ∧ InI64 c := by
  rw [C01_mul_exact_or_raises a b ha hb, exactOrRaise] at h
  split_ifs at h with h1
  simp only [Except.ok.injEq] at h; subst h; exact ⟨rfl, h1⟩

theorem cneg_ok {a c : Int} (ha : InI64 a) (h : cneg a = .ok c) : c = -a ∧ InI64 c := by
  rw [C01_neg_exact_or_raises a ha, exactOrRaise] at h
  split_ifs at h with h1
  simp only [Except.ok.injEq] at h; subst h; exact ⟨rfl, h1⟩

theorem cabs_ok {a c : Int} (ha : InI64 a) (h : cabs a = .ok c) : c = |a| ∧ InI64 c := by
  rw [C01_abs_exact_or_raises a ha, exactOrRaise] at h
  split_ifs at h with h1
  simp only [Except.ok.injEq] at h; subst h; exact ⟨rfl, h1⟩

theorem cdiv_ok {a b c : Int} (ha : InI64 a) (hb : InI64 b) (h : cdiv a b = .ok c) : b ≠ 0 ∧ c = a.tdiv b ∧ InI64 c := by
  rw [C01_div_exact_or_raises a b ha hb, exactOrRaise] at h
  split_ifs at h with h1 h2
  simp only [Except.ok.injEq] at h; subst h; exact ⟨h1, rfl, h2⟩

theorem cgcd_ok {a b c : Int} (ha : InI64 a) (hb : InI64 b) (h : cgcd a b = .ok c) : c = Int.gcd a b := by
  rw [C01_gcd_exact_or_raises a b ha hb] at h
  split_ifs at h with h1
  simp only [Except.ok.injEq] at h; exact h.symm

theorem integerPower_ok {b c : Int} {e : Nat} (hb : InI64 b) (h : integerPower b e = .ok c) : c = b ^ e ∧ InI64 c := by
  rw [C03_integer_power_exact_or_raises b e hb] at h
  split_ifs at h with h1
  simp only [Except.ok.injEq] at h; subst h; exact ⟨rfl, h1⟩

theorem integerPowerChecked_ok {b e c : Int} (hb : InI64 b) (h : integerPowerChecked b e = .ok c) :
    0 ≤ e ∧ c = b ^ e.toNat ∧ InI64 c := by
  rw [C03_signed_exponent b e hb] at h
  split_ifs at h with h1 h2
  simp only [Except.ok.injEq] at h; subst h; exact ⟨by omega, rfl, h2⟩

theorem ratMk_ok {n d : Int} {r : RatC} (hn : InI64 n) (hd : InI64 d) (h0 : d ≠ 0) (h : ratMk n d = .ok r) :
    r.Canonical ∧ r.val = (n : ℚ) / d := C04_constructed_is_canonical n d hn hd h0 r h

theorem ratMul_ok {a b r : RatC} (ha : a.Canonical) (hb : b.Canonical) (h : ratMul a b = .ok r) :
    r.Canonical ∧ r.val = a.val * b.val := by
  have hs := C05_mul a b ha hb
  rw [h] at hs
  unfold ratOutcome at hs
  split_ifs at hs with h1 h2
  simp only [Except.ok.injEq] at hs
  have hpos : 0 < a.d * b.d := mul_pos ha.2.2.1 hb.2.2.1
  have hv : ((a.n * b.n : Int) : ℚ) / ((a.d * b.d : Int) : ℚ) = a.val * b.val := by
    simp only [RatC.val]; push_cast; rw [div_mul_div_comm]
  subst hs
  refine ⟨?_, canon_val _⟩
  rw [← hv]
  exact (ratMk_spec _ _ h1.1 h1.2 h2 (pos_ne_minI hpos) hpos.ne').2

theorem ratMulInt_ok {a r : RatC} {b : Int} (ha : a.Canonical) (hb : InI64 b) (h : ratMulInt a b = .ok r) :
    r.Canonical ∧ r.val = a.val * b := by
  have hs := C05_mul_int a b ha hb
  rw [h] at hs
  unfold ratOutcome at hs
  split_ifs at hs with h1 h2
  simp only [Except.ok.injEq] at hs
  have hv : ((a.n * b : Int) : ℚ) / (a.d : ℚ) = a.val * b := by
    simp only [RatC.val]; push_cast; ring
  subst hs
  refine ⟨?_, canon_val _⟩
  rw [← hv]
  exact (ratMk_spec _ _ h1 ha.2.1 h2 (pos_ne_minI ha.2.2.1) ha.2.2.1.ne').2

theorem ratAdd_ok {a b r : RatC} (ha : a.Canonical) (hb : b.Canonical) (h : ratAdd a b = .ok r) :
    r.Canonical ∧ r.val = a.val + b.val := by
  have hs := C05_add a b ha hb
  rw [h] at hs
  unfold ratOutcome at hs
  split_ifs at hs with h1 h2
  simp only [Except.ok.injEq] at hs
  have hpos : 0 < a.d * b.d := mul_pos ha.2.2.1 hb.2.2.1
  have e1 := ha.d_ne
  have e2 := hb.d_ne
  have hv : ((a.n * b.d + b.n * a.d : Int) : ℚ) / ((a.d * b.d : Int) : ℚ) = a.val + b.val := by
    simp only [RatC.val]; push_cast; field_simp
  subst hs
  refine ⟨?_, canon_val _⟩
  rw [← hv]
  exact (ratMk_spec _ _ h1.2.2.1 h1.2.2.2 h2 (pos_ne_minI hpos) hpos.ne').2

/-- Split `x >>= f = ok` into its parts. -/
theorem bind_ok_iff {α β : Type} {x : Res α} {f : α → Res β} {b : β} :
    (x >>= f) = .ok b ↔ ∃ a, x = .ok a ∧ f a = .ok b := by
  cases x with
  | error e => simp
  | ok a => simp

/-! ### factorize_rational_exponent -/

theorem RatC.Canonical.val_nonneg {r : RatC} (h : r.Canonical) : 0 ≤ r.val ↔ 0 ≤ r.n := by
  have hdp : (0 : ℚ) < r.d := by exact_mod_cast h.2.2.1
  rw [RatC.val, div_nonneg_iff_of_pos_right hdp]
  exact_mod_cast Iff.rfl

theorem RatC.Canonical.val_eq_zero {r : RatC} (h : r.Canonical) : r.val = 0 ↔ r.n = 0 := by
  rw [RatC.val, div_eq_zero_iff]
  have := h.d_ne
  constructor
  · rintro (h1 | h1)
    · exact_mod_cast h1
    · exact absurd h1 this
  · intro h1; left; exact_mod_cast h1

theorem factorizeRationalExponent_spec (r : RatC) (h : r.Canonical) :
    ∃ f, factorizeRationalExponent r = .ok (⌊r.val⌋, f) ∧ f.Canonical ∧ f.val = Int.fract r.val ∧ InI64 ⌊r.val⌋ := by
  obtain ⟨i, f, hn, hf, hv, hlt, hpos, hneg⟩ := C05_normalized r h
  have hs := ratNormalized_spec r h
  have hm := tmod_fits (a := r.n) h.2.1 h.2.2.1
  have hi64 := tdiv_fits_pos h.1 h.2.2.1
  rw [hs.1] at hn
  simp only [Except.ok.injEq, Prod.mk.injEq] at hn
  obtain ⟨hni, hnf⟩ := hn
  rw [hni] at hi64
  obtain ⟨hl1, hl2⟩ := abs_lt.mp hlt
  unfold factorizeRationalExponent
  rw [C01_div_exact_or_raises _ _ h.1 h.2.1, C01_mod_exact_or_raises _ _ h.1 h.2.1,
    if_neg h.2.2.1.ne', if_neg h.2.2.1.ne', if_pos (by rw [hni]; exact hi64), exactOrRaise, hni, if_pos hi64]
  simp only [Res.bind_ok]
  rw [(ratMk_spec _ _ hm.1 h.2.1 hm.2 (pos_ne_minI h.2.2.1) h.2.2.1.ne').1, hnf]
  simp only [Res.bind_ok]
  split_ifs with hc
  · have hf0 : 0 ≤ f.val := by
      rcases hc with hc | hc
      · exact hpos (h.val_nonneg.mpr hc)
      · rw [hf.val_eq_zero.mpr hc]
    have hfl : ⌊r.val⌋ = i := by
      rw [Int.floor_eq_iff, hv]; constructor <;> linarith
    refine ⟨f, by rw [hfl]; rfl, hf, ?_, by rw [hfl]; exact hi64⟩
    rw [Int.fract, hfl, hv]; ring
  · push Not at hc
    have hrneg : r.val < 0 := by
      by_contra hcon
      have := h.val_nonneg.mp (not_lt.mp hcon)
      omega
    have hfneg : f.val < 0 := lt_of_le_of_ne (hneg hrneg.le) (fun e => hc.2 (hf.val_eq_zero.mp e))
    have hfl : ⌊r.val⌋ = i - 1 := by
      rw [Int.floor_eq_iff, hv]; push_cast; constructor <;> linarith
    -- the integer part is not the smallest integer: the denominator is not one
    have hd1 : r.d ≠ 1 := by
      intro h1
      apply hc.2
      have : r.n.tmod r.d = 0 := by rw [h1]; simp
      rw [← hnf, this]
      simp [canon]
    have himin : InI64 (i - 1) := by
      rw [← hni]
      have h3 : (r.n.tdiv r.d).natAbs ≤ r.n.natAbs / 2 := by
        rw [Int.natAbs_tdiv]
        apply Nat.div_le_div_left _ (by omega)
        have := h.2.2.1; omega
      have h4 := h.1
      rw [InI64_iff] at *
      omega
    have hmk : ratMk 1 1 = .ok ⟨1, 1⟩ := by decide
    rw [C01_sub_exact_or_raises _ _ hi64 (by decide), exactOrRaise, if_pos himin, hmk]
    simp only [Res.bind_ok]
    have hadd := C05_add f ⟨1, 1⟩ hf canonical_one
    simp only [mul_one, one_mul] at hadd
    unfold ratOutcome at hadd
    have hfd := hf.2.2.1
    have hfdr := (InI64_iff _).mp hf.2.1
    have hfn : f.n < 0 := by
      by_contra hcon
      have := hf.val_nonneg.mpr (not_lt.mp hcon)
      linarith
    have f1 := (InI64_iff _).mp hf.1
    have f2 : InI64 (f.n + f.d) := by rw [InI64_iff]; omega
    have f3 : f.n + f.d ≠ minI := by simp only [minI]; omega
    rw [if_pos ⟨hf.1, hf.2.1, f2, hf.2.1⟩, if_neg f3] at hadd
    obtain ⟨hc1, hc2⟩ := ratAdd_ok hf canonical_one hadd
    rw [hadd]
    have hone : (⟨1, 1⟩ : RatC).val = 1 := by simp [RatC.val]
    refine ⟨_, by rw [hfl]; rfl, hc1, ?_, by rw [hfl]; exact himin⟩
    rw [hc2, hone, Int.fract, hfl, hv]; push_cast; ring

theorem factorizeRationalExponent_ok {r f : RatC} {i : Int} (h : r.Canonical)
    (hok : factorizeRationalExponent r = .ok (i, f)) :
    f.Canonical ∧ i = ⌊r.val⌋ ∧ f.val = Int.fract r.val ∧ InI64 i := by
  obtain ⟨f', h1, h2, h3, h4⟩ := factorizeRationalExponent_spec r h
  rw [h1] at hok
  simp only [Except.ok.injEq, Prod.mk.injEq] at hok
  obtain ⟨rfl, rfl⟩ := hok
  exact ⟨h2, rfl, h3, h4⟩

/-! ### The loop over prime factors -/

/-- Value of one entry, for a positive base. -/
noncomputable def ExpEntry.rval (e : ExpEntry) : ℝ := (e.base : ℝ) ^ ((e.exponent : ℝ) / (e.den : ℝ))

structure ExpEntry.Good (e : ExpEntry) : Prop where
  base_pos : 0 < e.base
  base_fit : InI64 e.base
  den_pos : 0 < e.den
  den_fit : InI64 e.den
  exp_pos : 0 < e.exponent
  exp_fit : InI64 e.exponent

noncomputable def entriesVal (es : List ExpEntry) : ℝ := (es.map ExpEntry.rval).prod

theorem ratCast_val (r : RatC) : ((r.val : ℚ) : ℝ) = (r.n : ℝ) / (r.d : ℝ) := by
  simp [RatC.val]

theorem insertEntry_ok {f : PrimeFactor} {frac : RatC} (hf : 0 < f.base) (hf64 : InI64 f.base)
    (hc : frac.Canonical) (hpos : 0 < frac.n) :
    ∀ {es es' : List ExpEntry}, (∀ e ∈ es, e.Good) → insertEntry f frac es = .ok es' →
      (∀ e ∈ es', e.Good) ∧ entriesVal es' = entriesVal es * (f.base : ℝ) ^ ((frac.val : ℚ) : ℝ) := by
  intro es
  induction es with
  | nil =>
    intro es' _ h
    simp only [insertEntry, Except.ok.injEq] at h
    subst h
    refine ⟨?_, ?_⟩
    · intro e he
      simp only [List.mem_singleton] at he
      subst he
      exact ⟨hf, hf64, hc.2.2.1, hc.2.1, hpos, hc.1⟩
    · simp [entriesVal, ExpEntry.rval, ratCast_val]
  | cons e rest ih =>
    intro es' hg h
    have hge := hg e (by simp)
    unfold insertEntry at h
    split_ifs at h with hden
    · rw [bind_ok_iff] at h
      obtain ⟨g, hg1, h⟩ := h
      rw [bind_ok_iff] at h
      obtain ⟨x, hx, h⟩ := h
      rw [bind_ok_iff] at h
      obtain ⟨p, hp, h⟩ := h
      rw [bind_ok_iff] at h
      obtain ⟨y, hy, h⟩ := h
      rw [bind_ok_iff] at h
      obtain ⟨q, hq, h⟩ := h
      rw [bind_ok_iff] at h
      obtain ⟨b, hb, h⟩ := h
      simp only [Res.pure_eq, Except.ok.injEq] at h
      subst h
      have hgv := cgcd_ok hge.exp_fit hc.1 hg1
      have hgpos : 0 < g := by
        rw [hgv]
        exact_mod_cast Int.gcd_pos_of_ne_zero_left _ hge.exp_pos.ne'
      have hgd1 : g ∣ e.exponent := by rw [hgv]; exact Int.gcd_dvd_left _ _
      have hgd2 : g ∣ frac.n := by rw [hgv]; exact Int.gcd_dvd_right _ _
      have hg64 : InI64 g := by
        have h1 := Int.le_of_dvd hge.exp_pos hgd1
        have h2 := (InI64_iff _).mp hge.exp_fit
        rw [InI64_iff]; omega
      obtain ⟨_, hxv, hx64⟩ := cdiv_ok hge.exp_fit hg64 hx
      obtain ⟨_, hyv, hy64⟩ := cdiv_ok hc.1 hg64 hy
      obtain ⟨hx0, hpv, hp64⟩ := integerPowerChecked_ok hge.base_fit hp
      obtain ⟨hy0, hqv, hq64⟩ := integerPowerChecked_ok hf64 hq
      obtain ⟨hbv, hb64⟩ := cmul_ok hp64 hq64 hb
      have hxg : e.exponent = g * x := by
        rw [hxv]; exact (Int.mul_tdiv_cancel' hgd1).symm
      have hyg : frac.n = g * y := by
        rw [hyv]; exact (Int.mul_tdiv_cancel' hgd2).symm
      have hppos : 0 < p := by rw [hpv]; exact pow_pos hge.base_pos _
      have hqpos : 0 < q := by rw [hqv]; exact pow_pos hf _
      refine ⟨?_, ?_⟩
      · intro e' he'
        rcases List.mem_cons.mp he' with rfl | he'
        · exact ⟨by rw [hbv]; exact mul_pos hppos hqpos, hb64, hge.den_pos, hge.den_fit, hgpos, hg64⟩
        · exact hg e' (by simp [he'])
      · have hpr : (p : ℝ) = (e.base : ℝ) ^ (x : ℝ) := by
          rw [hpv]; push_cast
          rw [← Real.rpow_natCast]
          congr 1
          exact_mod_cast Int.toNat_of_nonneg hx0
        have hqr : (q : ℝ) = (f.base : ℝ) ^ (y : ℝ) := by
          rw [hqv]; push_cast
          rw [← Real.rpow_natCast]
          congr 1
          exact_mod_cast Int.toNat_of_nonneg hy0
        have hbr : (0 : ℝ) ≤ (e.base : ℝ) := by exact_mod_cast hge.base_pos.le
        have hfr : (0 : ℝ) ≤ (f.base : ℝ) := by exact_mod_cast hf.le
        have key : (b : ℝ) ^ ((g : ℝ) / (e.den : ℝ)) =
            (e.base : ℝ) ^ ((e.exponent : ℝ) / e.den) * (f.base : ℝ) ^ ((frac.val : ℚ) : ℝ) := by
          rw [hbv]; push_cast
          rw [Real.mul_rpow (by rw [hpr]; exact Real.rpow_nonneg hbr _) (by rw [hqr]; exact Real.rpow_nonneg hfr _),
            hpr, hqr, ← Real.rpow_mul hbr, ← Real.rpow_mul hfr, ratCast_val, hxg, hyg, ← hden]
          push_cast
          congr 2 <;> ring
        simp only [entriesVal, List.map_cons, List.prod_cons, ExpEntry.rval]
        rw [key]; ring
    · rw [bind_ok_iff] at h
      obtain ⟨rest', hr, h⟩ := h
      simp only [Res.pure_eq, Except.ok.injEq] at h
      subst h
      obtain ⟨h1, h2⟩ := ih (fun e' he' => hg e' (by simp [he'])) hr
      refine ⟨?_, ?_⟩
      · intro e' he'
        rcases List.mem_cons.mp he' with rfl | he'
        · exact hge
        · exact h1 e' he'
      · simp only [entriesVal, List.map_cons, List.prod_cons] at h2 ⊢
        rw [h2]; ring

noncomputable def stVal (st : RatC × List ExpEntry) : ℝ := ((st.1.val : ℚ) : ℝ) * entriesVal st.2

structure StGood (st : RatC × List ExpEntry) : Prop where
  coeff : st.1.Canonical
  entries : ∀ e ∈ st.2, e.Good

theorem intRatStep_ok {exp : RatC} (hexp : exp.Canonical) {f : PrimeFactor} (hf : 0 < f.base) (hf64 : InI64 f.base)
    (hfe : InI64 f.exponent) {st st' : RatC × List ExpEntry} (hst : StGood st) (h : intRatStep exp st f = .ok st') :
    StGood st' ∧ stVal st' = stVal st * ((f.base : ℝ) ^ (f.exponent : ℕ)) ^ ((exp.val : ℚ) : ℝ) := by
  unfold intRatStep at h
  rw [bind_ok_iff] at h
  obtain ⟨actual, ha, h⟩ := h
  rw [bind_ok_iff] at h
  obtain ⟨⟨ip, frac⟩, hfr, h⟩ := h
  rw [bind_ok_iff] at h
  obtain ⟨isInt, hint, h⟩ := h
  have hec : RatC.Canonical ⟨f.exponent, 1⟩ := ⟨hfe, by show InI64 1; decide, by show (0 : Int) < 1; decide, by simp⟩
  obtain ⟨hac, hav⟩ := ratMul_ok hexp hec ha
  obtain ⟨hfc, hipv, hfv, hip64⟩ := factorizeRationalExponent_ok hac hfr
  have hactual : ((actual.val : ℚ) : ℝ) = ((exp.val : ℚ) : ℝ) * (f.exponent : ℝ) := by
    rw [hav]; push_cast; congr 1; simp [RatC.val]
  have hbr : (0 : ℝ) < (f.base : ℝ) := by exact_mod_cast hf
  have hsplit : ((f.base : ℝ) ^ (f.exponent : ℕ)) ^ ((exp.val : ℚ) : ℝ) =
      (f.base : ℝ) ^ (ip : ℝ) * (f.base : ℝ) ^ ((frac.val : ℚ) : ℝ) := by
    rw [← Real.rpow_natCast, ← Real.rpow_mul hbr.le, ← Real.rpow_add hbr]
    congr 1
    rw [hfv, hipv]
    rw [mul_comm, ← hactual]
    have := Int.floor_add_fract actual.val
    exact_mod_cast this.symm
  simp only at h
  by_cases hassert : frac.n < 0 ∨ frac.n ≠ 0 ∧ isInt = true
  · rw [if_pos hassert] at h; simp at h
  rw [if_neg hassert, bind_ok_iff] at h
  obtain ⟨c, hc, h⟩ := h
  -- the coefficient is multiplied by base^ip
  have hcoeff : c.Canonical ∧ ((c.val : ℚ) : ℝ) = ((st.1.val : ℚ) : ℝ) * (f.base : ℝ) ^ (ip : ℝ) := by
    split_ifs at hc with hip
    · rw [bind_ok_iff] at hc
      obtain ⟨p, hp, hc⟩ := hc
      rw [bind_ok_iff] at hc
      obtain ⟨r, hr, hc⟩ := hc
      obtain ⟨hip0, hpv, hp64⟩ := integerPowerChecked_ok hf64 hp
      obtain ⟨hrc, hrv⟩ := ratMk_ok hp64 (by decide) (by decide) hr
      obtain ⟨hcc, hcv⟩ := ratMul_ok hst.coeff hrc hc
      refine ⟨hcc, ?_⟩
      rw [hcv, hrv, hpv]
      push_cast
      rw [div_one, ← Real.rpow_natCast]
      congr 2
      exact_mod_cast Int.toNat_of_nonneg hip0
    · rw [bind_ok_iff] at hc
      obtain ⟨m, hm, hc⟩ := hc
      rw [bind_ok_iff] at hc
      obtain ⟨p, hp, hc⟩ := hc
      rw [bind_ok_iff] at hc
      obtain ⟨r, hr, hc⟩ := hc
      obtain ⟨hmv, hm64⟩ := cneg_ok hip64 hm
      obtain ⟨hm0, hpv, hp64⟩ := integerPowerChecked_ok hf64 hp
      have hppos : 0 < p := by rw [hpv]; exact pow_pos hf _
      obtain ⟨hrc, hrv⟩ := ratMk_ok (by decide) hp64 hppos.ne' hr
      obtain ⟨hcc, hcv⟩ := ratMul_ok hst.coeff hrc hc
      refine ⟨hcc, ?_⟩
      rw [hcv, hrv, hpv]
      push_cast
      have e1 : (ip : ℝ) = -(m.toNat : ℝ) := by
        have : (ip : ℤ) = -(m.toNat : ℤ) := by rw [Int.toNat_of_nonneg hm0]; omega
        exact_mod_cast this
      rw [e1, Real.rpow_neg hbr.le, Real.rpow_natCast, one_div]
  split_ifs at h with hz
  · simp only [Res.pure_eq, Except.ok.injEq] at h
    subst h
    refine ⟨⟨hcoeff.1, hst.entries⟩, ?_⟩
    have hf0 : frac.val = 0 := hfc.val_eq_zero.mpr hz
    rw [hsplit, hf0]
    simp only [stVal]
    rw [hcoeff.2]
    push_cast
    rw [Real.rpow_zero]; ring
  · rw [bind_ok_iff] at h
    obtain ⟨m, hm, h⟩ := h
    simp only [Res.pure_eq, Except.ok.injEq] at h
    subst h
    have hfpos : 0 < frac.n := by
      have h0 : 0 ≤ frac.val := by rw [hfv]; exact Int.fract_nonneg _
      have := hfc.val_nonneg.mp h0
      omega
    obtain ⟨h1, h2⟩ := insertEntry_ok hf hf64 hfc hfpos hst.entries hm
    refine ⟨⟨hcoeff.1, h1⟩, ?_⟩
    simp only [stVal]
    rw [hcoeff.2, h2, hsplit]; ring

theorem intRatLoop_ok {exp : RatC} (hexp : exp.Canonical) :
    ∀ (fs : List PrimeFactor) (st st' : RatC × List ExpEntry),
      (∀ f ∈ fs, 0 < f.base ∧ InI64 f.base ∧ InI64 f.exponent) → StGood st → intRatLoop exp st fs = .ok st' →
      StGood st' ∧ stVal st' = stVal st * (((fs.map (fun f => f.base ^ f.exponent)).prod : ℤ) : ℝ) ^ ((exp.val : ℚ) : ℝ) := by
  intro fs
  induction fs with
  | nil =>
    intro st st' _ hst h
    simp only [intRatLoop, Except.ok.injEq] at h
    subst h
    refine ⟨hst, by simp⟩
  | cons f fs ih =>
    intro st st' hfs hst h
    unfold intRatLoop at h
    rw [bind_ok_iff] at h
    obtain ⟨st1, h1, h⟩ := h
    obtain ⟨f1, f2, f3⟩ := hfs f (by simp)
    obtain ⟨g1, v1⟩ := intRatStep_ok hexp f1 f2 f3 hst h1
    obtain ⟨g2, v2⟩ := ih st1 st' (fun f' hf' => hfs f' (by simp [hf'])) g1 h
    refine ⟨g2, ?_⟩
    have hpos : ∀ l : List PrimeFactor, (∀ f ∈ l, 0 < f.base) → 0 < (l.map (fun f => f.base ^ f.exponent)).prod := by
      intro l
      induction l with
      | nil => intro _; simp
      | cons a l ih => intro h; simp only [List.map_cons, List.prod_cons]; exact mul_pos (pow_pos (h a (by simp)) _) (ih (fun x hx => h x (by simp [hx])))
    have hp := hpos fs (fun f' hf' => (hfs f' (by simp [hf'])).1)
    rw [v2, v1]
    simp only [List.map_cons, List.prod_cons]
    push_cast
    rw [Real.mul_rpow (by have : (0 : ℝ) < f.base := by exact_mod_cast f1
                          positivity) ?_]
    · ring
    · have : (0 : ℝ) ≤ ((fs.map (fun f => f.base ^ f.exponent)).prod : ℤ) := by exact_mod_cast hp.le
      simpa using this

end Wf
