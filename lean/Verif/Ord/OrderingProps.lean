import Verif.Ord.OrderingLemmas
import Mathlib.Algebra.Order.Ring.Int
import Mathlib.Order.Defs.LinearOrder

/-! # C49: ordering combinators preserve strict total orders -/

namespace Wf

/-- Sequences over a totally ordered element type are totally ordered. -/
theorem C49_sequences_total {α : Type _} (cmp : α → α → Ordering) (h : TotalOrder cmp) : TotalOrder (lexOrder cmp) where
  eq_iff l m := lex_eq_iff l m fun x _ => h.eq_iff x
  swap l m := lex_swap l m fun x _ => h.swap x
  trans l m n := lex_trans l m n (fun x _ => h.trans x) (fun x _ => h.eq_iff x) (fun x _ => h.eq_iff x)

/-- A proper prefix comes first. -/
theorem C49_prefix_first {α : Type _} (cmp : α → α → Ordering) (h : TotalOrder cmp) (l : List α) (x : α) (m : List α) :
    lexOrder cmp l (l ++ x :: m) = .lt ∧ lexOrder cmp (l ++ x :: m) l = .gt := by
  induction l with
  | nil => simp [lexOrder]
  | cons a l ih => simp [lexOrder, (h.eq_iff a a).mpr rfl, ih]

/-- The first difference decides. -/
theorem C49_first_difference {α : Type _} (cmp : α → α → Ordering) (h : TotalOrder cmp) (p : List α) (a b : α) (l m : List α)
    (hab : cmp a b ≠ .eq) : lexOrder cmp (p ++ a :: l) (p ++ b :: m) = cmp a b := by
  induction p with
  | nil => simp only [List.nil_append, lexOrder]; cases hc : cmp a b <;> simp_all
  | cons x p ih => simp [lexOrder, (h.eq_iff x x).mpr rfl, ih]

/-- `<` of a linear order gives a total three-way comparison (integers, characters, enumerations). -/
theorem C49_comparison_total {α : Type _} [LinearOrder α] : TotalOrder (orderByComparison (fun a b : α => decide (a < b))) where
  eq_iff a b := by
    unfold orderByComparison
    rcases lt_trichotomy a b with h | h | h
    · simp [h, h.ne]
    · simp [h]
    · simp [h, h.ne', h.not_gt]
  swap a b := by
    unfold orderByComparison
    rcases lt_trichotomy a b with h | h | h
    · simp [h, h.not_gt]
    · simp [h]
    · simp [h, h.not_gt]
  trans a b c := by
    unfold orderByComparison
    intro h1 h2
    have h1' : a < b := by
      by_contra hc; simp only [decide_eq_true_eq, hc, if_false] at h1; split at h1 <;> cases h1
    have h2' : b < c := by
      by_contra hc; simp only [decide_eq_true_eq, hc, if_false] at h2; split at h2 <;> cases h2
    simp [h1'.trans h2']

/-- Strings compare as sequences of characters. -/
theorem C49_strings_total {χ : Type _} [LinearOrder χ] :
    TotalOrder (lexOrder (orderByComparison (fun a b : χ => decide (a < b)))) :=
  C49_sequences_total _ C49_comparison_total

/-- Ordering by one field and then by another is a total order on pairs; the first field decides when it differs. -/
theorem C49_chain_total {α β : Type _} (f : α → α → Ordering) (g : β → β → Ordering) (hf : TotalOrder f) (hg : TotalOrder g) :
    TotalOrder (fun a b : α × β => andThenBy (f a.1 b.1) (g a.2 b.2)) where
  eq_iff a b := by
    have h1 := hf.eq_iff a.1 b.1
    have h2 := hg.eq_iff a.2 b.2
    unfold andThenBy
    rw [Prod.ext_iff]
    split
    · rename_i hne; simp [h1] at hne; simp [hne, h1]
    · rename_i hne; simp [h1] at hne; simp [hne, h2]
  swap a b := by
    have h1 := hf.swap a.1 b.1
    have h2 := hg.swap a.2 b.2
    unfold andThenBy
    rw [h1, h2]
    cases f a.1 b.1 <;> simp [Ordering.swap]
  trans a b c := by
    have h1 := hf.trans a.1 b.1 c.1
    have h2 := hg.trans a.2 b.2 c.2
    have e1 := hf.eq_iff a.1 b.1
    have e2 := hf.eq_iff b.1 c.1
    unfold andThenBy
    intro hab hbc
    cases hf1 : f a.1 b.1 with
    | gt => rw [hf1] at hab; simp at hab
    | lt =>
      cases hf2 : f b.1 c.1 with
      | gt => rw [hf2] at hbc; simp at hbc
      | lt => simp [h1 hf1 hf2]
      | eq => rw [← e2.mp hf2]; simp [hf1]
    | eq =>
      have e := e1.mp hf1
      rw [e]
      cases hf2 : f b.1 c.1 with
      | gt => rw [hf2] at hbc; simp at hbc
      | lt => simp
      | eq => simp [hf1] at hab; simp [hf2] at hbc; simpa using h2 hab hbc

/-- Tagged unions of totally ordered types are totally ordered: first by tag, then by contents. -/
theorem C49_variant_total {n : Nat} {T : Fin n → Type _} (cmp : (i : Fin n) → T i → T i → Ordering)
    (h : ∀ i, TotalOrder (cmp i)) : TotalOrder (orderVariant cmp) := by
  have key : ∀ (i : Fin n) (x y : T i), orderVariant cmp ⟨i, x⟩ ⟨i, y⟩ = cmp i x y := by
    intro i x y; simp [orderVariant]
  have hlt : ∀ a b : (i : Fin n) × T i, a.1.val < b.1.val → orderVariant cmp a b = .lt := by
    intro a b hab; simp [orderVariant, hab]
  have hgt : ∀ a b : (i : Fin n) × T i, a.1.val > b.1.val → orderVariant cmp a b = .gt := by
    intro a b hab; simp [orderVariant, hab, Nat.lt_asymm hab]
  constructor
  · rintro ⟨i, x⟩ ⟨j, y⟩
    rcases lt_trichotomy i.val j.val with hij | hij | hij
    · rw [hlt ⟨i, x⟩ ⟨j, y⟩ hij]; simp; intro h; subst h; exact absurd hij (lt_irrefl _)
    · have : i = j := Fin.ext hij
      subst this
      rw [key, (h i).eq_iff]; simp
    · rw [hgt ⟨i, x⟩ ⟨j, y⟩ hij]; simp; intro h; subst h; exact absurd hij (lt_irrefl _)
  · rintro ⟨i, x⟩ ⟨j, y⟩
    rcases lt_trichotomy i.val j.val with hij | hij | hij
    · rw [hlt ⟨i, x⟩ ⟨j, y⟩ hij, hgt ⟨j, y⟩ ⟨i, x⟩ hij]; rfl
    · have : i = j := Fin.ext hij
      subst this
      rw [key, key, (h i).swap]
    · rw [hgt ⟨i, x⟩ ⟨j, y⟩ hij, hlt ⟨j, y⟩ ⟨i, x⟩ hij]; rfl
  · rintro ⟨i, x⟩ ⟨j, y⟩ ⟨k, z⟩ h1 h2
    have le1 : i.val ≤ j.val := by
      by_contra hc; rw [hgt ⟨i, x⟩ ⟨j, y⟩ (by simpa using hc)] at h1; cases h1
    have le2 : j.val ≤ k.val := by
      by_contra hc; rw [hgt ⟨j, y⟩ ⟨k, z⟩ (by simpa using hc)] at h2; cases h2
    rcases Nat.lt_or_ge i.val k.val with hik | hik
    · exact hlt ⟨i, x⟩ ⟨k, z⟩ hik
    · have e1 : i = j := Fin.ext (by omega)
      have e2 : j = k := Fin.ext (by omega)
      subst e1; subst e2
      rw [key] at *
      exact (h i).trans x y z h1 h2

/-! Non-vacuity -/
example : lexOrder (orderByComparison (fun a b : Int => decide (a < b))) [1, 2] [1, 2, -5] = .lt ∧
    lexOrder (orderByComparison (fun a b : Int => decide (a < b))) [1, 3] [1, 2, -5] = .gt := by decide
example : TotalOrder (orderByComparison (fun a b : Int => decide (a < b))) := C49_comparison_total

end Wf
