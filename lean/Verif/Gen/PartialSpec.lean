import Verif.Gen.GraphSpec
import Mathlib.Algebra.BigOperators.Group.List.Basic

/-!
# Arithmetic with undefined values

A commutative ring with the additional value "undefined". Sums and products of something undefined are undefined; in particular `0 * a` is undefined if `a`
is, and so is `a - a`.
-/

namespace Wf.Gen

/-- A number, or undefined. -/
def Partial (K : Type) : Type := Option K

namespace Partial
variable {K : Type} [CommRing K]

/-- A number. -/
def num (x : K) : Partial K := some x

/-- No number. -/
def undefined : Partial K := none

/-- An operation that is undefined if one of the operands is. -/
def map₂ (f : K → K → K) : Partial K → Partial K → Partial K
  | some a, some b => some (f a b)
  | _, _ => none

instance : Add (Partial K) := ⟨map₂ (· + ·)⟩
instance : Mul (Partial K) := ⟨map₂ (· * ·)⟩
instance : Zero (Partial K) := ⟨some 0⟩
instance : One (Partial K) := ⟨some 1⟩
instance : Neg (Partial K) := ⟨Option.map (- ·)⟩
instance : IntCast (Partial K) := ⟨fun n => some n⟩

instance : Arith (Partial K) where
  nsmul := nsmulRec
  add_assoc := by
    rintro (_ | a) (_ | b) (_ | c) <;> first | rfl | exact congrArg some (_root_.add_assoc a b c)
  zero_add := by
    rintro (_ | a) <;> first | rfl | exact congrArg some (_root_.zero_add a)
  add_zero := by
    rintro (_ | a) <;> first | rfl | exact congrArg some (_root_.add_zero a)
  add_comm := by
    rintro (_ | a) (_ | b) <;> first | rfl | exact congrArg some (_root_.add_comm a b)
  mul_assoc := by
    rintro (_ | a) (_ | b) (_ | c) <;> first | rfl | exact congrArg some (_root_.mul_assoc a b c)
  one_mul := by
    rintro (_ | a) <;> first | rfl | exact congrArg some (_root_.one_mul a)
  mul_one := by
    rintro (_ | a) <;> first | rfl | exact congrArg some (_root_.mul_one a)
  mul_comm := by
    rintro (_ | a) (_ | b) <;> first | rfl | exact congrArg some (_root_.mul_comm a b)
  mul_add := by
    rintro (_ | a) (_ | b) (_ | c) <;> first | rfl | exact congrArg some (_root_.mul_add a b c)
  neg_eq := by
    rintro (_ | a) <;> first | rfl | exact congrArg some (neg_one_mul a).symm
  neg_one_sq := congrArg some (show (-1 : K) * -1 = 1 by rw [neg_mul_neg, _root_.one_mul])
  cast_one := congrArg some Int.cast_one
  cast_neg_one := congrArg some (show ((-1 : ℤ) : K) = -1 by rw [Int.cast_neg, Int.cast_one])

theorem add_num (a b : K) : num a + num b = num (a + b) := rfl
theorem mul_num (a b : K) : num a * num b = num (a * b) := rfl
theorem zero_num : (0 : Partial K) = num 0 := rfl
theorem one_num : (1 : Partial K) = num 1 := rfl
theorem neg_num (a : K) : -num a = num (-a) := rfl
theorem int_num (n : ℤ) : (n : Partial K) = num (n : K) := rfl
theorem num_inj {a b : K} : num a = num b ↔ a = b := Option.some_inj

theorem add_eq_num {x y : Partial K} {z : K} (h : x + y = num z) : ∃ a b, x = num a ∧ y = num b ∧ z = a + b := by
  rcases x with _ | a <;> rcases y with _ | b
  · cases h
  · cases h
  · cases h
  · exact ⟨a, b, rfl, rfl, (num_inj.1 h).symm⟩

theorem mul_eq_num {x y : Partial K} {z : K} (h : x * y = num z) : ∃ a b, x = num a ∧ y = num b ∧ z = a * b := by
  rcases x with _ | a <;> rcases y with _ | b
  · cases h
  · cases h
  · cases h
  · exact ⟨a, b, rfl, rfl, (num_inj.1 h).symm⟩

/-- A sum is undefined if a term is. -/
theorem sum_eq_num : ∀ {l : List (Partial K)} {z : K}, l.sum = num z → ∃ zs : List K, l = zs.map num ∧ z = zs.sum
  | [], _, h => ⟨[], rfl, (num_inj.1 h).symm⟩
  | x :: l, z, h => by
    rw [List.sum_cons] at h
    obtain ⟨a, b, rfl, hb, rfl⟩ := add_eq_num h
    obtain ⟨zs, rfl, rfl⟩ := sum_eq_num hb
    exact ⟨a :: zs, rfl, by rw [List.sum_cons]⟩

/-- A product is undefined if a factor is. -/
theorem prod_eq_num : ∀ {l : List (Partial K)} {z : K}, l.prod = num z → ∃ zs : List K, l = zs.map num ∧ z = zs.prod
  | [], _, h => ⟨[], rfl, (num_inj.1 h).symm⟩
  | x :: l, z, h => by
    rw [List.prod_cons] at h
    obtain ⟨a, b, rfl, hb, rfl⟩ := mul_eq_num h
    obtain ⟨zs, rfl, rfl⟩ := prod_eq_num hb
    exact ⟨a :: zs, rfl, by rw [List.prod_cons]⟩

/-- All the numbers, if all are defined. -/
def all : List (Partial K) → Option (List K)
  | [] => some []
  | some a :: l => (all l).map (a :: ·)
  | none :: _ => none

theorem all_num : ∀ zs : List K, all (zs.map num) = some zs
  | [] => rfl
  | z :: zs => by
    show (all (zs.map num)).map (z :: ·) = _
    rw [all_num zs]; rfl

theorem all_eq : ∀ {l : List (Partial K)} {zs : List K}, all l = some zs → l = zs.map num
  | [], zs, h => by cases h; rfl
  | some a :: l, zs, h => by
    obtain ⟨ws, hw, rfl⟩ := Option.map_eq_some_iff.1 (show (all l).map (a :: ·) = some zs from h)
    rw [all_eq hw]; rfl
  | none :: _, _, h => by cases h

end Partial
end Wf.Gen
