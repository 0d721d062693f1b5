import Verif.Num.IntegerUtilsLemmas
import Verif.Num.LargePrime
import Mathlib.Data.Nat.Prime.Int

/-!
# C02, C03: factorisation and integer powers
-/

namespace Wf

/-- What a factorisation of `n` is (specification, independent of the algorithm): strictly increasing
bases; each base is a prime with positive exponent, except a possible leading `(-1)^1`; the product is
`n`. -/
structure IsPrimeFactorization (l : List PrimeFactor) (n : Int) : Prop where
  prod : (l.map (fun f => f.base ^ f.exponent)).prod = n
  increasing : l.Pairwise (fun a b => a.base < b.base)
  exponents : ∀ f ∈ l, 0 < f.exponent
  primes : ∀ f ∈ l, (f.base = -1 ∧ f.exponent = 1 ∧ n < 0) ∨ ∃ p : Nat, p.Prime ∧ f.base = p

theorem factorProd_eq (l : List PrimeFactor) :
    factorProd l = (l.map (fun f => f.base ^ f.exponent)).prod := by
  induction l with
  | nil => rfl
  | cons x xs ih => simp [factorProd, ih]

/-- C02 (positive part): for every non-zero 64-bit integer other than the most negative one, whose
prime factors are below 3037000499², the library computes its complete prime factorisation.

`_partial`: the full property quantifies over all 64-bit integers; it fails exactly on inputs with a
larger prime factor (`C02_large_prime_is_undefined_behaviour`) and raises for the most negative integer
(`C02_most_negative_raises`). -/
theorem C02_prime_factorization_partial (n : Int) (hn : InI64 n) (h0 : n ≠ 0) (hmin : n ≠ minI)
    (hp : ∀ p : Nat, p.Prime → (p : Int) ∣ n → p < 3037000499 ^ 2) :
    ∃ l, computePrimeFactors n = .ok l ∧ IsPrimeFactorization l n := by
  unfold computePrimeFactors
  rw [if_neg h0]
  split_ifs with hneg
  · rw [C01_neg_exact_or_raises n hn, exactOrRaise, if_pos (by
      rw [InI64_iff] at *; simp only [minI] at hmin; omega)]
    simp only [Res.bind_ok]
    have hfac : Factorable (-n).toNat := by
      intro p hpp hd
      apply hp p hpp
      have := Int.natCast_dvd_natCast.mpr hd
      rw [Int.toNat_of_nonneg (by omega)] at this
      exact (Int.dvd_neg).mp this
    obtain ⟨l, h1, h2, h3, h4⟩ := factorLoop_spec (-n).toNat [⟨-1, 1⟩] (by omega)
      (by rw [Int.toNat_of_nonneg (by omega)]; rw [InI64_iff] at hn; simp only [minI, maxI] at *; omega)
      hfac ⟨by intro f hf; simp at hf; subst hf; exact ⟨by simp, Or.inl ⟨rfl, rfl⟩⟩, by simp,
        by intro f hf p hpp hd; simp at hf; subst hf; simp⟩
    refine ⟨l, h1, ⟨?_, h4, fun f hf => (h3 f hf).1, ?_⟩⟩
    · rw [← factorProd_eq, h2, Int.toNat_of_nonneg (by omega)]
      simp [factorProd]
    · intro f hf
      rcases (h3 f hf).2 with h | h
      · exact Or.inl ⟨h.1, h.2, hneg⟩
      · exact Or.inr h
  · have hfac : Factorable n.toNat := by
      intro p hpp hd
      apply hp p hpp
      have := Int.natCast_dvd_natCast.mpr hd
      rwa [Int.toNat_of_nonneg (by omega)] at this
    obtain ⟨l, h1, h2, h3, h4⟩ := factorLoop_spec n.toNat [] (by omega)
      (by rw [Int.toNat_of_nonneg (by omega)]; exact hn.2)
      hfac ⟨by simp, by simp, by simp⟩
    have hprod : factorProd l = n := by
      rw [h2, Int.toNat_of_nonneg (by omega)]; simp [factorProd]
    refine ⟨l, h1, ⟨by rw [← factorProd_eq, hprod], h4, fun f hf => (h3 f hf).1, ?_⟩⟩
    intro f hf
    rcases (h3 f hf).2 with h | h
    · -- a factor -1 would make the product negative
      exfalso
      obtain ⟨s, t, rfl⟩ := List.append_of_mem hf
      have pos : ∀ m : List PrimeFactor, (∀ g ∈ m, g ∈ s ++ f :: t ∧ g.base ≠ -1) → 0 < factorProd m := by
        intro m
        induction m with
        | nil => intro _; simp [factorProd]
        | cons g gs ih =>
          intro hm
          have hg := hm g (by simp)
          rcases (h3 g hg.1).2 with hh | ⟨p, hpp, hh⟩
          · exact absurd hh.1 hg.2
          · simp only [factorProd]
            apply mul_pos
            · rw [hh]; exact pow_pos (by exact_mod_cast hpp.pos) _
            · exact ih (fun x hx => hm x (by simp [hx]))
      rw [List.pairwise_append] at h4
      obtain ⟨_, hft, hst⟩ := h4
      rw [List.pairwise_cons] at hft
      have h5 := pos s (fun g hg => ⟨by simp [hg], by
        have := hst g hg f (by simp); omega⟩)
      have h6 := pos t (fun g hg => ⟨by simp [hg], by
        have := hft.1 g hg; omega⟩)
      rw [factorProd_append] at hprod
      simp only [factorProd] at hprod
      rw [h.1, h.2] at hprod
      have : 0 < n := by omega
      nlinarith [mul_pos h5 h6]
    · exact Or.inr h

/-- A factorisation is complete: every prime divisor of the input occurs in the list. -/
theorem C02_complete (l : List PrimeFactor) (n : Int) (h : IsPrimeFactorization l n) (p : Nat)
    (hp : p.Prime) (hd : (p : Int) ∣ n) : ∃ f ∈ l, f.base = p := by
  have hpi : Prime (p : Int) := Nat.prime_iff_prime_int.mp hp
  rw [← h.prod] at hd
  rw [hpi.dvd_prod_iff] at hd
  obtain ⟨v, hv, hdv⟩ := hd
  obtain ⟨f, hf, rfl⟩ := List.mem_map.mp hv
  refine ⟨f, hf, ?_⟩
  have hdb := hpi.dvd_of_dvd_pow hdv
  rcases h.primes f hf with ⟨h1, _, _⟩ | ⟨q, hq, h1⟩
  · rw [h1] at hdb
    have := Int.natCast_dvd.mp hdb
    simp at this
    exact absurd this hp.one_lt.ne'
  · rw [h1] at hdb ⊢
    have := (Nat.prime_dvd_prime_iff_eq hp hq).mp (by exact_mod_cast hdb)
    rw [this]

/-- Zero has the empty factor list (callers handle zero before). -/
theorem C02_zero : computePrimeFactors 0 = .ok [] := rfl

/-- The most negative integer raises instead of returning a wrong factorisation. -/
theorem C02_most_negative_raises : computePrimeFactors minI = .error .arithmetic := rfl

theorem factorLoop_ub (p : Nat) (hp : p.Prime) (hge : 3037000499 ^ 2 ≤ p) (hle : (p : Int) ≤ maxI)
    (rev : List PrimeFactor) : factorLoop p rev = .error .ub := by
  have h2 := hp.two_le
  have : wheelFactorization p = .error .ub := by
    rw [wheelFactorization_spec p h2 hle, if_pos ⟨hp, hge⟩]
  unfold factorLoop
  rw [dif_neg (by omega)]
  split
  · rename_i e he; rw [this] at he; simpa using he.symm
  · rename_i f he; rw [this] at he; simp at he

/-- Disagreement with C02: for the 64-bit prime 9223372036854775783 (and for every prime from
3037000499², with either sign) the square of the loop counter overflows, which is undefined behaviour. -/
theorem C02_large_prime_is_undefined_behaviour :
    (∀ n : Int, InI64 n → n.natAbs.Prime → 3037000499 ^ 2 ≤ n.natAbs → computePrimeFactors n = .error .ub) ∧
    computePrimeFactors 9223372036854775783 = .error .ub := by
  have key : ∀ n : Int, InI64 n → n.natAbs.Prime → 3037000499 ^ 2 ≤ n.natAbs →
      computePrimeFactors n = .error .ub := by
    intro n hn hp hge
    have hm : n ≠ minI := by
      rintro rfl
      have h2 : (minI.natAbs) = 2 ^ 63 := by decide
      rw [h2] at hp
      exact Nat.Prime.not_prime_pow (n := 63) (by norm_num) hp
    have hle : ((n.natAbs : Nat) : Int) ≤ maxI := by
      rw [InI64_iff] at hn; simp only [minI, maxI] at *; omega
    have hpos := hp.pos
    unfold computePrimeFactors
    rw [if_neg (by omega)]
    split_ifs with hneg
    · rw [C01_neg_exact_or_raises n hn, exactOrRaise, if_pos (by
        rw [InI64_iff] at *; simp only [minI] at hm; omega)]
      simp only [Res.bind_ok]
      have e : (-n).toNat = n.natAbs := by omega
      rw [e]
      exact factorLoop_ub _ hp hge hle _
    · have e : n.toNat = n.natAbs := by omega
      rw [e]
      exact factorLoop_ub _ hp hge hle _
  refine ⟨key, key 9223372036854775783 (by decide) ?_ (by norm_num)⟩
  have : (9223372036854775783 : Int).natAbs = 9223372036854775783 := rfl
  rw [this]
  exact largePrime_prime

/-- The complete behaviour of factorisation on 64-bit integers other than zero and the most negative one: undefined behaviour when
the magnitude is a prime from 3037000499², the complete prime factorisation otherwise. -/
theorem C02_factorization_or_undefined (n : Int) (hn : InI64 n) (h0 : n ≠ 0) (hmin : n ≠ minI) :
    (n.natAbs.Prime ∧ 3037000499 ^ 2 ≤ n.natAbs ∧ computePrimeFactors n = .error .ub) ∨
    (∃ l, computePrimeFactors n = .ok l ∧ IsPrimeFactorization l n) := by
  by_cases h : ∃ p : Nat, p.Prime ∧ (p : Int) ∣ n ∧ 3037000499 ^ 2 ≤ p
  · left
    obtain ⟨p, hp, hd, hge⟩ := h
    have hd' : p ∣ n.natAbs := Int.natCast_dvd.mp hd
    obtain ⟨c, hc⟩ := hd'
    have hle : n.natAbs ≤ 9223372036854775807 := by
      rw [InI64_iff] at hn; simp only [minI] at hmin; omega
    have hc1 : c = 1 := by
      have hc0 : c ≠ 0 := by rintro rfl; simp at hc; exact h0 hc
      by_contra hne
      have : 2 ≤ c := by omega
      have : p * 2 ≤ p * c := Nat.mul_le_mul_left p this
      norm_num at hge
      omega
    have he : n.natAbs = p := by rw [hc, hc1, mul_one]
    rw [he]
    refine ⟨hp, hge, C02_large_prime_is_undefined_behaviour.1 n hn (by rwa [he]) (by rwa [he])⟩
  · right
    refine C02_prime_factorization_partial n hn h0 hmin (fun p hp hd => ?_)
    by_contra hc
    exact h ⟨p, hp, hd, by omega⟩

/-- C03: integer power is exact, and raises exactly when the result does not fit. -/
theorem C03_integer_power_exact_or_raises (base : Int) (exp : Nat) (hb : InI64 base) :
    integerPower base exp = if InI64 (base ^ exp) then .ok (base ^ exp) else .error .arithmetic := by
  unfold integerPower
  rw [integerPowerLoop_spec 1 base exp (by decide) hb (by omega), one_mul]
  rfl

/-- C03 for a signed exponent: negative exponents are rejected. -/
theorem C03_signed_exponent (base exp : Int) (hb : InI64 base) :
    integerPowerChecked base exp = if exp < 0 then .error .domain
      else if InI64 (base ^ exp.toNat) then .ok (base ^ exp.toNat) else .error .arithmetic := by
  unfold integerPowerChecked cToU64
  split_ifs with h h2
  · rfl
  · simp only [Res.bind_ok]; rw [C03_integer_power_exact_or_raises _ _ hb, if_pos h2]
  · simp only [Res.bind_ok]; rw [C03_integer_power_exact_or_raises _ _ hb, if_neg h2]

/-! Non-vacuity. -/
example : InI64 (-360) ∧ (-360 : Int) ≠ 0 ∧ (-360 : Int) ≠ minI ∧
    ∀ p : Nat, p.Prime → (p : Int) ∣ -360 → p < 3037000499 ^ 2 := by
  refine ⟨by decide, by decide, by decide, fun p _ hd => ?_⟩
  have := Nat.le_of_dvd (by norm_num) (Int.natCast_dvd.mp hd)
  norm_num at this ⊢
  omega
example : integerPower (-2) 63 = .ok minI := by
  rw [C03_integer_power_exact_or_raises _ _ (by decide)]; decide
example : integerPower 2 63 = .error .arithmetic := by
  rw [C03_integer_power_exact_or_raises _ _ (by decide)]; decide

end Wf
