import Verif.Sym.CallSpec
import Verif.Gen.AstModel

/-!
# An exact machine, and equality of statements that can be decided
-/

namespace Wf.Gen

mutual
/-- The expressions are the same. -/
def AExpr.same : AExpr → AExpr → Bool
  | .ref v, .ref w => v == w
  | .app op l, .app op' l' => decide (op = op') && sames l l'
  | _, _ => false

def sames : List AExpr → List AExpr → Bool
  | [], [] => true
  | a :: l, b :: l' => a.same b && sames l l'
  | _, _ => false
end

mutual
theorem AExpr.same_eq : ∀ {a b : AExpr}, a.same b = true → a = b
  | .ref v, .ref w, h => by simp only [AExpr.same, beq_iff_eq] at h; rw [h]
  | .app op l, .app op' l', h => by
    simp only [AExpr.same, Bool.and_eq_true, decide_eq_true_eq] at h
    rw [h.1, sames_eq h.2]
  | .ref _, .app _ _, h => by simp [AExpr.same] at h
  | .app _ _, .ref _, h => by simp [AExpr.same] at h

theorem sames_eq : ∀ {l l' : List AExpr}, sames l l' = true → l = l'
  | [], [], _ => rfl
  | a :: l, b :: l', h => by
    simp only [sames, Bool.and_eq_true] at h
    rw [AExpr.same_eq h.1, sames_eq h.2]
  | [], _ :: _, h => by simp [sames] at h
  | _ :: _, [], h => by simp [sames] at h
end

mutual
/-- The statements are the same. -/
def Stmt.same : Stmt → Stmt → Bool
  | .decl v e, .decl v' e' => v == v' && e.same e'
  | .declare v, .declare v' => v == v'
  | .assign v e, .assign v' e' => v == v' && e.same e'
  | .output v e, .output v' e' => v == v' && e.same e'
  | .ret v e, .ret v' e' => v == v' && e.same e'
  | .branch c t e, .branch c' t' e' => c.same c' && stmtsSame t t' && stmtsSame e e'
  | .optional k t, .optional k' t' => k == k' && stmtsSame t t'
  | _, _ => false

def stmtsSame : List Stmt → List Stmt → Bool
  | [], [] => true
  | a :: l, b :: l' => a.same b && stmtsSame l l'
  | _, _ => false
end

mutual
theorem Stmt.same_eq : ∀ {a b : Stmt}, a.same b = true → a = b
  | .decl v e, b, h => by
    cases b <;> simp only [Stmt.same, Bool.and_eq_true, beq_iff_eq, Bool.false_eq_true] at h
    rw [h.1, AExpr.same_eq h.2]
  | .declare v, b, h => by
    cases b <;> simp only [Stmt.same, beq_iff_eq, Bool.false_eq_true] at h
    rw [h]
  | .assign v e, b, h => by
    cases b <;> simp only [Stmt.same, Bool.and_eq_true, beq_iff_eq, Bool.false_eq_true] at h
    rw [h.1, AExpr.same_eq h.2]
  | .output v e, b, h => by
    cases b <;> simp only [Stmt.same, Bool.and_eq_true, beq_iff_eq, Bool.false_eq_true] at h
    rw [h.1, AExpr.same_eq h.2]
  | .ret v e, b, h => by
    cases b <;> simp only [Stmt.same, Bool.and_eq_true, beq_iff_eq, Bool.false_eq_true] at h
    rw [h.1, AExpr.same_eq h.2]
  | .branch c t e, b, h => by
    cases b <;> simp only [Stmt.same, Bool.and_eq_true, Bool.false_eq_true] at h
    rw [AExpr.same_eq h.1.1, stmtsSame_eq h.1.2, stmtsSame_eq h.2]
  | .optional k t, b, h => by
    cases b <;> simp only [Stmt.same, Bool.and_eq_true, beq_iff_eq, Bool.false_eq_true] at h
    rw [h.1, stmtsSame_eq h.2]

theorem stmtsSame_eq : ∀ {l l' : List Stmt}, stmtsSame l l' = true → l = l'
  | [], [], _ => rfl
  | a :: l, b :: l', h => by
    simp only [stmtsSame, Bool.and_eq_true] at h
    rw [Stmt.same_eq h.1, stmtsSame_eq h.2]
  | [], _ :: _, h => by simp [stmtsSame] at h
  | _ :: _, [], h => by simp [stmtsSame] at h
end

/-- The statements of a run. -/
theorem stmts_of_same {r : Res (List Stmt)} {ss : List Stmt} (h : (match r with | .ok l => stmtsSame l ss | .error _ => false) = true) : r = .ok ss := by
  cases r with
  | error e => simp at h
  | ok l => rw [stmtsSame_eq h]

end Wf.Gen

namespace Wf.Sym
open Complex
open Wf.Gen.Text (Machine Fn Rel)

/-- Comparisons; numbers that are not real are compared with zero so that the sign is the difference of two comparisons. -/
noncomputable def exactCmp : Rel → ℂ → ℂ → ℂ
  | .lt, a, b => (relVal .lt a b).getD (if a = 0 then b / ‖b‖ else 0)
  | .le, a, b => (relVal .le a b).getD 0
  | .eq, a, b => (relVal .eq a b).getD 0

noncomputable def exactFn : Fn → List ℂ → ℂ
  | .cos, l => (fnVal .cos l).getD 0
  | .sin, l => (fnVal .sin l).getD 0
  | .tan, l => (fnVal .tan l).getD 0
  | .acos, l => (fnVal .arccos l).getD 0
  | .asin, l => (fnVal .arcsin l).getD 0
  | .atan, l => (fnVal .arctan l).getD 0
  | .cosh, l => (fnVal .cosh l).getD 0
  | .sinh, l => (fnVal .sinh l).getD 0
  | .tanh, l => (fnVal .tanh l).getD 0
  | .acosh, l => (fnVal .arccosh l).getD 0
  | .asinh, l => (fnVal .arcsinh l).getD 0
  | .atanh, l => (fnVal .arctanh l).getD 0
  | .exp, l => (fnVal .exp l).getD 0
  | .ln, l => (fnVal .log l).getD 0
  | .abs, l => (fnVal .abs l).getD 0
  | .sign, l => (fnVal .signum l).getD 0
  | .floor, l => (fnVal .floor l).getD 0
  | .atan2, l => (fnVal .arctan2 l).getD 0
  | .sqrt, [a] => (powVal a (1 / 2)).getD 0
  | .pow, [a, b] => (powVal a b).getD 0
  | _, _ => 0

open Classical in
/-- An exact machine. -/
noncomputable def exactMachine : Machine ℂ where
  lit := fun n => if n = "0.0f64" then some 0 else none
  truth := fun x => decide (x = 1)
  div := fun x y => x / y
  cmp := exactCmp
  cast := fun _ x => x
  fn := exactFn

theorem exactMachine_exact : Exact exactMachine where
  fn f zs z h := by cases f <;> (show (fnVal _ zs).getD 0 = z; rw [h]; rfl)
  sqrt a z h := by show (powVal a (1 / 2)).getD 0 = z; rw [h]; rfl
  pow a b z h := by show (powVal a b).getD 0 = z; rw [h]; rfl
  div a b _ := rfl
  cmp op a b z h := by
    cases op
    · show (relVal .lt a b).getD _ = z; rw [h]; rfl
    · show (relVal .le a b).getD 0 = z; rw [h]; rfl
    · show (relVal .eq a b).getD 0 = z; rw [h]; rfl
  yes := by simp [exactMachine]
  no := by simp [exactMachine]
  float _ := rfl
  int _ _ := rfl

theorem sign_cmp (x : ℂ) : (fnVal .signum [x]).getD 0 = exactCmp .lt 0 x - exactCmp .lt x 0 := by
  by_cases h0 : x = 0
  · subst h0; simp [fnVal, exactCmp]
  · by_cases hi : x.im = 0
    · have hx : x = (x.re : ℂ) := by apply Complex.ext <;> simp [hi]
      have hr : x.re ≠ 0 := fun h => h0 (by rw [hx, h]; rfl)
      have hn : (‖x‖ : ℝ) = |x.re| := by rw [hx, Complex.norm_real]; simp
      simp only [fnVal, if_neg h0, exactCmp, relVal, Complex.zero_im, Complex.zero_re, hi, and_self, if_true, Option.getD_some, hn]
      rw [hx, Complex.ofReal_re]
      rcases lt_or_gt_of_ne hr with h | h
      · rw [if_neg (by linarith), if_pos h, abs_of_neg h]
        push_cast
        rw [div_neg, div_self (by exact_mod_cast hr)]
        ring
      · rw [if_pos h, if_neg (by linarith), abs_of_pos h, div_self (by exact_mod_cast hr)]
        ring
    · simp [fnVal, h0, exactCmp, relVal, hi]

theorem exactMachine_lawful : exactMachine.Lawful where
  sign := sign_cmp
  floor := fun _ => rfl
  bool := fun _ _ _ => rfl
  zero := rfl
  rustZero := rfl
  refl := fun x => by simp [exactMachine, exactCmp, relVal]

end Wf.Sym
