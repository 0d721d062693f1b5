import Verif.Geo.QuaternionModel
import Mathlib.Tactic.LinearCombination
import Mathlib.Tactic.FieldSimp
import Mathlib.Tactic.FinCases
import Mathlib.Tactic.Linarith
import Mathlib.LinearAlgebra.Matrix.Adjugate

/-! # Scalar identities satisfied by the entries of a rotation matrix -/

namespace Wf.Geo

open Matrix

/-- The scalar content of `M Mᵀ = Mᵀ M = 1`, `det M = 1`. -/
structure Rot9 (a b c d e f g h i : ℝ) : Prop where
  r00 : a*a+b*b+c*c = 1
  r11 : d*d+e*e+f*f = 1
  r22 : g*g+h*h+i*i = 1
  c00 : a*a+d*d+g*g = 1
  c11 : b*b+e*e+h*h = 1
  c22 : c*c+f*f+i*i = 1
  r01 : a*d+b*e+c*f = 0
  r02 : a*g+b*h+c*i = 0
  r12 : d*g+e*h+f*i = 0
  c01 : a*b+d*e+g*h = 0
  c02 : a*c+d*f+g*i = 0
  c12 : b*c+e*f+h*i = 0
  k0 : a = e*i-f*h
  k1 : b = f*g-d*i
  k2 : c = d*h-e*g
  k3 : d = c*h-b*i
  k4 : e = a*i-c*g
  k5 : f = b*g-a*h
  k6 : g = b*f-c*e
  k7 : h = c*d-a*f
  k8 : i = a*e-b*d

theorem rot9_of_matrix (M : Matrix (Fin 3) (Fin 3) ℝ) (h1 : M * Mᵀ = 1) (h2 : Mᵀ * M = 1) (h3 : M.det = 1) :
    Rot9 (M 0 0) (M 0 1) (M 0 2) (M 1 0) (M 1 1) (M 1 2) (M 2 0) (M 2 1) (M 2 2) := by
  have hadj : M.adjugate = Mᵀ := by
    have := congrArg (fun N => N * Mᵀ) (adjugate_mul M)
    simp only [Matrix.mul_assoc, h1, h3, one_smul, Matrix.mul_one, Matrix.one_mul] at this
    exact this
  have e1 : ∀ i j, (M * Mᵀ) i j = (1 : Matrix (Fin 3) (Fin 3) ℝ) i j := fun i j => by rw [h1]
  have e2 : ∀ i j, (Mᵀ * M) i j = (1 : Matrix (Fin 3) (Fin 3) ℝ) i j := fun i j => by rw [h2]
  have e3 : ∀ i j, M.adjugate i j = M j i := fun i j => by rw [hadj]; rfl
  simp only [Matrix.mul_apply, Fin.sum_univ_three, Matrix.transpose_apply] at e1 e2
  rw [Matrix.adjugate_fin_three] at e3
  have s := e1 0 0
  constructor
  · simpa using e1 0 0
  · simpa using e1 1 1
  · simpa using e1 2 2
  · simpa using e2 0 0
  · simpa using e2 1 1
  · simpa using e2 2 2
  · simpa using e1 0 1
  · simpa using e1 0 2
  · simpa using e1 1 2
  · simpa using e2 0 1
  · simpa using e2 0 2
  · simpa using e2 1 2
  · have := e3 0 0; simp at this; linarith
  · have := e3 1 0; simp at this; linarith
  · have := e3 2 0; simp at this; linarith
  · have := e3 0 1; simp at this; linarith
  · have := e3 1 1; simp at this; linarith
  · have := e3 2 1; simp at this; linarith
  · have := e3 0 2; simp at this; linarith
  · have := e3 1 2; simp at this; linarith
  · have := e3 2 2; simp at this; linarith

/-- If four numbers `p = 4 q_i (q_0, …, q_3)` form row `i` of the symmetric matrix `4 q qᵀ`, dividing by `2 √p_i` recovers the products. -/
theorem div_prod {t pi pj pk pjk : ℝ} (ht : t * t = pi) (hpi : 0 < pi) (h : pj * pk = pi * pjk) :
    (pj / (t * 2)) * (pk / (t * 2)) = pjk / 4 := by
  have ht0 : t ≠ 0 := by rintro rfl; simp at ht; linarith
  field_simp
  rw [h]
  have : t ^ 2 = pi := by rw [← ht]; ring
  rw [this]; ring

theorem div_prod' {t pi pk : ℝ} (ht : t * t = pi) (hpi : 0 < pi)  :
    (t / 2) * (pk / (t * 2)) = pk / 4 := by
  have ht0 : t ≠ 0 := by rintro rfl; simp at ht; linarith
  field_simp
  ring

variable {M : Matrix (Fin 3) (Fin 3) ℝ}

theorem quat_of_products (q : Quat ℝ)
    (ww : q.w * q.w = (1 + M 0 0 + M 1 1 + M 2 2) / 4)
    (xx : q.x * q.x = (1 + M 0 0 - M 1 1 - M 2 2) / 4)
    (yy : q.y * q.y = (1 - M 0 0 + M 1 1 - M 2 2) / 4)
    (zz : q.z * q.z = (1 - M 0 0 - M 1 1 + M 2 2) / 4)
    (wx : q.w * q.x = (M 2 1 - M 1 2) / 4)
    (wy : q.w * q.y = (M 0 2 - M 2 0) / 4)
    (wz : q.w * q.z = (M 1 0 - M 0 1) / 4)
    (xy : q.x * q.y = (M 0 1 + M 1 0) / 4)
    (xz : q.x * q.z = (M 2 0 + M 0 2) / 4)
    (yz : q.y * q.z = (M 2 1 + M 1 2) / 4) :
    q.squaredNorm = 1 ∧ q.toRotationMatrix = M := by
  constructor
  · unfold Quat.squaredNorm; rw [ww, xx, yy, zz]; ring
  · ext i j
    fin_cases i <;> fin_cases j <;> simp [Quat.toRotationMatrix] <;> linarith

theorem sheppard_cases {a b c d e f g h i : ℝ} (H : Rot9 a b c d e f g h i) :
    ((h-f)*(h-f) = (1+a+e+i)*(1+a-e-i) ∧ (c-g)*(c-g) = (1+a+e+i)*(1-a+e-i) ∧ (d-b)*(d-b) = (1+a+e+i)*(1-a-e+i) ∧
    (h-f)*(c-g) = (1+a+e+i)*(b+d) ∧ (h-f)*(d-b) = (1+a+e+i)*(g+c) ∧ (c-g)*(d-b) = (1+a+e+i)*(h+f)) ∧
    ((b+d)*(b+d) = (1+a-e-i)*(1-a+e-i) ∧ (g+c)*(g+c) = (1+a-e-i)*(1-a-e+i) ∧
    (h-f)*(b+d) = (1+a-e-i)*(c-g) ∧ (h-f)*(g+c) = (1+a-e-i)*(d-b) ∧ (b+d)*(g+c) = (1+a-e-i)*(h+f)) ∧
    ((h+f)*(h+f) = (1-a+e-i)*(1-a-e+i) ∧ 
    (c-g)*(b+d) = (1-a+e-i)*(h-f) ∧ (c-g)*(h+f) = (1-a+e-i)*(d-b) ∧ (b+d)*(h+f) = (1-a+e-i)*(g+c)) ∧
    ((d-b)*(g+c) = (1-a-e+i)*(h-f) ∧ (d-b)*(h+f) = (1-a-e+i)*(c-g) ∧ (g+c)*(h+f) = (1-a-e+i)*(b+d)) := by
  obtain ⟨r00,r11,r22,c00,c11,c22,r01,r02,r12,c01,c02,c12,k0,k1,k2,k3,k4,k5,k6,k7,k8⟩ := H
  refine ⟨⟨?_, ?_, ?_, ?_, ?_, ?_⟩, ⟨?_, ?_, ?_, ?_, ?_⟩, ⟨?_, ?_, ?_, ?_⟩, ⟨?_, ?_, ?_⟩⟩ <;> linarith

theorem fromRotationMatrix_spec (h1 : M * Mᵀ = 1) (h2 : Mᵀ * M = 1) (h3 : M.det = 1) :
    (fromRotationMatrix M).squaredNorm = 1 ∧ (fromRotationMatrix M).toRotationMatrix = M := by
  obtain ⟨⟨s1, s2, s3, s4, s5, s6⟩, ⟨u1, u2, u3, u4, u5⟩, ⟨v1, v2, v3, v4⟩, ⟨w1, w2, w3⟩⟩ :=
    sheppard_cases (rot9_of_matrix M h1 h2 h3)
  have hsq : ∀ t : ℝ, 0 < t → √t * √t = t := fun t h => Real.mul_self_sqrt h.le
  unfold fromRotationMatrix Quat.where'
  simp only
  by_cases ht : M 0 0 + M 1 1 + M 2 2 > 0
  · simp only [ht, if_true]
    have hp : 0 < 1 + M 0 0 + M 1 1 + M 2 2 := by linarith
    have hm := hsq _ hp
    apply quat_of_products
    · simp only; linarith
    · exact div_prod hm hp s1
    · exact div_prod hm hp s2
    · exact div_prod hm hp s3
    · exact div_prod' hm hp
    · exact div_prod' hm hp
    · exact div_prod' hm hp
    · exact div_prod hm hp s4
    · exact div_prod hm hp s5
    · exact div_prod hm hp s6
  · simp only [ht, if_false]
    have caseq1 : 0 < 1 + M 0 0 - M 1 1 - M 2 2 → ∀ q : Quat ℝ, q = (⟨(M 2 1 - M 1 2) / (√(1 + M 0 0 - M 1 1 - M 2 2) * 2), √(1 + M 0 0 - M 1 1 - M 2 2) / 2, (M 0 1 + M 1 0) / (√(1 + M 0 0 - M 1 1 - M 2 2) * 2), (M 2 0 + M 0 2) / (√(1 + M 0 0 - M 1 1 - M 2 2) * 2)⟩ : Quat ℝ) →
        q.squaredNorm = 1 ∧ q.toRotationMatrix = M := by
      rintro hp _ rfl
      have hm := hsq _ hp
      apply quat_of_products
      · exact div_prod hm hp (by linarith)
      · simp only; linarith
      · exact div_prod hm hp u1
      · exact div_prod hm hp u2
      · rw [mul_comm]; exact div_prod' hm hp
      · exact div_prod hm hp u3
      · exact div_prod hm hp u4
      · exact div_prod' hm hp
      · exact div_prod' hm hp
      · exact div_prod hm hp u5
    have caseq2 : 0 < 1 - M 0 0 + M 1 1 - M 2 2 → ∀ q : Quat ℝ, q = (⟨(M 0 2 - M 2 0) / (√(1 - M 0 0 + M 1 1 - M 2 2) * 2), (M 0 1 + M 1 0) / (√(1 - M 0 0 + M 1 1 - M 2 2) * 2), √(1 - M 0 0 + M 1 1 - M 2 2) / 2, (M 1 2 + M 2 1) / (√(1 - M 0 0 + M 1 1 - M 2 2) * 2)⟩ : Quat ℝ) →
        q.squaredNorm = 1 ∧ q.toRotationMatrix = M := by
      rintro hp _ rfl
      have hm := hsq _ hp
      apply quat_of_products
      · exact div_prod hm hp (by linarith)
      · exact div_prod hm hp (by linarith)
      · simp only; linarith
      · exact div_prod hm hp (by linarith)
      · exact div_prod hm hp (by linarith)
      · rw [mul_comm]; exact div_prod' hm hp
      · exact div_prod hm hp (by linarith)
      · rw [mul_comm]; exact div_prod' hm hp
      · exact div_prod hm hp (by linarith)
      · simp only [add_comm (M 2 1)]; exact div_prod' hm hp
    have caseq3 : 0 < 1 - M 0 0 - M 1 1 + M 2 2 → ∀ q : Quat ℝ, q = (⟨(M 1 0 - M 0 1) / (√(1 - M 0 0 - M 1 1 + M 2 2) * 2), (M 2 0 + M 0 2) / (√(1 - M 0 0 - M 1 1 + M 2 2) * 2), (M 2 1 + M 1 2) / (√(1 - M 0 0 - M 1 1 + M 2 2) * 2), √(1 - M 0 0 - M 1 1 + M 2 2) / 2⟩ : Quat ℝ) →
        q.squaredNorm = 1 ∧ q.toRotationMatrix = M := by
      rintro hp _ rfl
      have hm := hsq _ hp
      apply quat_of_products
      · exact div_prod hm hp (by linarith)
      · exact div_prod hm hp (by linarith)
      · exact div_prod hm hp (by linarith)
      · simp only; linarith
      · exact div_prod hm hp (by linarith)
      · exact div_prod hm hp (by linarith)
      · rw [mul_comm]; exact div_prod' hm hp
      · exact div_prod hm hp (by linarith)
      · rw [mul_comm]; exact div_prod' hm hp
      · rw [mul_comm]; exact div_prod' hm hp
    by_cases h10 : M 1 1 > M 0 0
    · simp only [h10, if_true]
      by_cases h21 : M 2 2 > M 1 1
      · simp only [h21, if_true]
        exact caseq3 (by linarith) _ rfl
      · simp only [h21, if_false]
        exact caseq2 (by linarith) _ rfl
    · simp only [h10, if_false]
      by_cases h20 : M 2 2 > M 0 0
      · simp only [h20, if_true]
        exact caseq3 (by linarith) _ rfl
      · simp only [h20, if_false]
        exact caseq1 (by linarith) _ rfl

end Wf.Geo
