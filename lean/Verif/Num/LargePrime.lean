import Mathlib.NumberTheory.LucasPrimality
import Mathlib.Tactic.NormNum.Prime

/-!
Primality of 9223372036854775783 (the largest prime below 2^63) by a Lucas certificate. Used as the
witness of the overflow in `wheel_factorization`.
-/

namespace Wf

/-- Modular power by squaring; `fuel` bounds the number of bits of the exponent. -/
def powMod (m : Nat) : (fuel a e : Nat) → Nat
  | 0, _, _ => 1 % m
  | fuel + 1, a, e =>
    if e % 2 = 1 then a * powMod m fuel (a * a % m) (e / 2) % m else powMod m fuel (a * a % m) (e / 2)

theorem powMod_eq (m : Nat) : ∀ fuel a e, e < 2 ^ fuel → powMod m fuel a e ≡ a ^ e [MOD m] := by
  intro fuel
  induction fuel with
  | zero => intro a e h; simp at h; subst h; simp [powMod, Nat.ModEq]
  | succ n ih =>
    intro a e h
    have h2 : e / 2 < 2 ^ n := by rw [pow_succ] at h; omega
    have hsq : (a * a % m) ^ (e / 2) ≡ (a * a) ^ (e / 2) [MOD m] := (Nat.mod_modEq _ _).pow _
    have hpow : a ^ e = a ^ (e % 2) * (a * a) ^ (e / 2) := by
      rw [← pow_two, ← pow_mul, ← pow_add, Nat.mod_add_div]
    unfold powMod
    split_ifs with h1
    · refine (Nat.mod_modEq _ _).trans ?_
      rw [hpow, h1, pow_one]
      exact (Nat.ModEq.refl a).mul ((ih _ _ h2).trans hsq)
    · have : e % 2 = 0 := by omega
      rw [hpow, this, pow_zero, one_mul]
      exact (ih _ _ h2).trans hsq

theorem zmod_pow_eq_one_iff (p a e : Nat) (h : e < 2 ^ 64) (hp : 1 < p) :
    (a : ZMod p) ^ e = 1 ↔ powMod p 64 a e % p = 1 := by
  have h1 := powMod_eq p 64 a e h
  rw [← Nat.cast_pow, ← Nat.cast_one (R := ZMod p), ZMod.natCast_eq_natCast_iff]
  unfold Nat.ModEq at *
  rw [← h1, Nat.mod_eq_of_lt hp]

theorem lucas_cert (p a : Nat) (hp : 1 < p) (hlt : p < 2 ^ 64) (h1 : powMod p 64 a (p - 1) % p = 1)
    (hd : ∀ q : Nat, q.Prime → q ∣ p - 1 → powMod p 64 a ((p - 1) / q) % p ≠ 1) : p.Prime := by
  apply lucas_primality p (a : ZMod p)
  · rw [zmod_pow_eq_one_iff p a _ (by omega) hp]; exact h1
  · intro q hq hdq
    rw [Ne, zmod_pow_eq_one_iff p a _ (lt_of_le_of_lt (Nat.div_le_self _ _) (by omega)) hp]
    exact hd q hq hdq

theorem prime_319279 : Nat.Prime 319279 := by norm_num

theorem prime_456065899 : Nat.Prime 456065899 := by
  apply lucas_cert _ 2 (by norm_num) (by norm_num) (by decide +kernel)
  intro q hq hd
  have hfac : 456065899 - 1 = 2 * 3 * 1471 * 51673 := by norm_num
  rw [hfac] at hd
  have h1471 : Nat.Prime 1471 := by norm_num
  have h51673 : Nat.Prime 51673 := by norm_num
  simp only [hq.dvd_mul, Nat.prime_dvd_prime_iff_eq hq Nat.prime_two,
    Nat.prime_dvd_prime_iff_eq hq Nat.prime_three, Nat.prime_dvd_prime_iff_eq hq h1471,
    Nat.prime_dvd_prime_iff_eq hq h51673] at hd
  rcases hd with ((rfl | rfl) | rfl) | rfl <;> decide +kernel

theorem largePrime_prime : Nat.Prime 9223372036854775783 := by
  apply lucas_cert _ 3 (by norm_num) (by norm_num) (by decide +kernel)
  intro q hq hd
  have hfac : 9223372036854775783 - 1 = 2 * 3 ^ 4 * 17 * 23 * 319279 * 456065899 := by norm_num
  rw [hfac] at hd
  have h17 : Nat.Prime 17 := by norm_num
  have h23 : Nat.Prime 23 := by norm_num
  have h3 : q ∣ 3 ^ 4 ↔ q = 3 := by
    constructor
    · intro h; exact (Nat.prime_dvd_prime_iff_eq hq Nat.prime_three).mp (hq.dvd_of_dvd_pow h)
    · rintro rfl; norm_num
  simp only [hq.dvd_mul, Nat.prime_dvd_prime_iff_eq hq Nat.prime_two, h3,
    Nat.prime_dvd_prime_iff_eq hq h17, Nat.prime_dvd_prime_iff_eq hq h23,
    Nat.prime_dvd_prime_iff_eq hq prime_319279, Nat.prime_dvd_prime_iff_eq hq prime_456065899] at hd
  rcases hd with ((((rfl | rfl) | rfl) | rfl) | rfl) | rfl <;> decide +kernel

end Wf
