import Verif.Sym.FunctionLemmas

/-! # Relations and conditionals keep the value -/

namespace Wf.Sym
open Complex

variable {F : Type} [DecidableEq F] [FnSem F]

/-- The value of a relation between two expressions. -/
noncomputable def relO (ρ : Env F) (op : RelOp) (a b : Expr F) : Option ℂ := (eval ρ a).bind fun x => (eval ρ b).bind fun y => relVal op x y

theorem eval_rel (ρ : Env F) (op : RelOp) (a b : Expr F) : eval ρ (.rel op a b) = relO ρ op a b := by rw [eval]; rfl
theorem eval_bconst (ρ : Env F) (b : Bool) : eval ρ (.bconst b) = some (if b then 1 else 0) := by rw [eval]; rfl
theorem eval_cond (ρ : Env F) (c a b : Expr F) : eval ρ (.cond c a b) = condO (eval ρ c) (eval ρ a) (eval ρ b) := by rw [eval]; rfl
theorem eval_iverson (ρ : Env F) (c : Expr F) : eval ρ (.iverson c) = eval ρ c := by rw [eval]; rfl

/-- The symbolic constants compare with integers as their doubles do. -/
theorem dbl_lt (c : SymConst) (n : Int) : (c.dbl < (n : ℚ) ↔ c.val < n) ∧ ((n : ℚ) < c.dbl ↔ (n : ℝ) < c.val) := by
  have key : ∃ m : Int, ((m : ℚ) < c.dbl ∧ c.dbl < m + 1) ∧ ((m : ℝ) < c.val ∧ c.val < m + 1) := by
    cases c
    · refine ⟨2, ⟨?_, ?_⟩, ?_, ?_⟩
      · simp [SymConst.dbl]; norm_num
      · simp [SymConst.dbl]; norm_num
      · show ((2 : Int) : ℝ) < Real.exp 1
        have := Real.exp_one_gt_d9; push_cast; linarith
      · show Real.exp 1 < ((2 : Int) : ℝ) + 1
        have := Real.exp_one_lt_d9; push_cast; linarith
    · refine ⟨3, ⟨?_, ?_⟩, ?_, ?_⟩
      · simp [SymConst.dbl]; norm_num
      · simp [SymConst.dbl]; norm_num
      · show ((3 : Int) : ℝ) < Real.pi
        have := Real.pi_gt_three; push_cast; linarith
      · show Real.pi < ((3 : Int) : ℝ) + 1
        have := Real.pi_lt_four; push_cast; linarith
  obtain ⟨m, ⟨h1, h2⟩, h3, h4⟩ := key
  rcases le_or_gt n m with h | h
  · have e1 : (n : ℚ) ≤ m := by exact_mod_cast h
    have e2 : (n : ℝ) ≤ m := by exact_mod_cast h
    exact ⟨iff_of_false (by linarith) (by linarith), iff_of_true (by linarith) (by linarith)⟩
  · have h' : m + 1 ≤ n := h
    have e1 : (m : ℚ) + 1 ≤ n := by exact_mod_cast h'
    have e2 : (m : ℝ) + 1 ≤ n := by exact_mod_cast h'
    exact ⟨iff_of_true (by linarith) (by linarith), iff_of_false (by linarith) (by linarith)⟩

theorem dbl_lt_dbl (c d : SymConst) : c.dbl < d.dbl ↔ c.val < d.val := by
  have e1 : Real.exp 1 < Real.pi := by have := Real.exp_one_lt_d9; have := Real.pi_gt_three; linarith
  cases c <;> cases d
  · simp
  · exact iff_of_true (by simp [SymConst.dbl]; norm_num) e1
  · exact iff_of_false (by simp [SymConst.dbl]; norm_num) (not_lt.2 e1.le)
  · simp

theorem ratLt_ok {a b : RatC} {t : Bool} (ha : a.Canonical) (hb : b.Canonical) (h : ratLt a b = .ok t) : (t = true ↔ (a.val : ℝ) < b.val) := by
  rw [C06_less_than a b ha hb] at h
  split_ifs at h
  cases h
  rw [decide_eq_true_eq]
  exact_mod_cast Iff.rfl

/-- A comparison that has a result is right: both sides are real, and the first is less iff the answer is yes. -/
theorem numLt_ok (ρ : Env F) {a b : Expr F} {t : Bool} (ha : Good a) (hb : Good b) (h : numLt a b = some (.ok t)) {x y : ℂ}
    (hx : eval ρ a = some x) (hy : eval ρ b = some y) : x.im = 0 ∧ y.im = 0 ∧ (t = true ↔ x.re < y.re) := by
  have ri : ∀ n : Int, ((ratOfInt n).val : ℝ) = n := fun n => by rw [ratOfInt_val]; push_cast; rfl
  unfold numLt at h
  split at h
  · rename_i m n
    simp only [Option.some.injEq] at h
    rw [eval_int] at hx hy
    cases hx; cases hy
    have := ratLt_ok (canonical_ofInt (good_int.1 ha)) (canonical_ofInt (good_int.1 hb)) h
    rw [ri, ri] at this
    refine ⟨by simp, by simp, ?_⟩
    simpa using this
  · rename_i m q
    simp only [Option.some.injEq] at h
    rw [eval_int] at hx; rw [eval_rat] at hy
    cases hx; cases hy
    have := ratLt_ok (canonical_ofInt (good_int.1 ha)) (good_rat.1 hb).1 h
    rw [ri] at this
    refine ⟨by simp, by simp, ?_⟩
    simpa using this
  · rename_i q m
    simp only [Option.some.injEq] at h
    rw [eval_rat] at hx; rw [eval_int] at hy
    cases hx; cases hy
    have := ratLt_ok (good_rat.1 ha).1 (canonical_ofInt (good_int.1 hb)) h
    rw [ri] at this
    refine ⟨by simp, by simp, ?_⟩
    simpa using this
  · rename_i p q
    simp only [Option.some.injEq] at h
    rw [eval_rat] at hx hy
    cases hx; cases hy
    have := ratLt_ok (good_rat.1 ha).1 (good_rat.1 hb).1 h
    refine ⟨by simp, by simp, ?_⟩
    simpa using this
  · rename_i m c
    simp only [Option.some.injEq, Except.ok.injEq] at h
    subst h
    rw [eval_int] at hx; rw [eval_const] at hy
    cases hx; cases hy
    refine ⟨by simp, by simp, ?_⟩
    rw [decide_eq_true_eq, (dbl_lt c m).2]; simp
  · rename_i c m
    simp only [Option.some.injEq, Except.ok.injEq] at h
    subst h
    rw [eval_const] at hx; rw [eval_int] at hy
    cases hx; cases hy
    refine ⟨by simp, by simp, ?_⟩
    rw [decide_eq_true_eq, (dbl_lt c m).1]; simp
  · rename_i c d
    simp only [Option.some.injEq, Except.ok.injEq] at h
    subst h
    rw [eval_const] at hx hy
    cases hx; cases hy
    refine ⟨by simp, by simp, ?_⟩
    rw [decide_eq_true_eq, dbl_lt_dbl]; simp
  · rename_i f g
    simp only [Option.some.injEq, Except.ok.injEq] at h
    rw [eval_flt] at hx hy
    obtain ⟨u, hu, rfl⟩ := flt_some hx
    obtain ⟨v, hv, rfl⟩ := flt_some hy
    refine ⟨by simp, by simp, ?_⟩
    rw [← h]
    simpa using FloatSem.lt_iff f g u v hu hv
  · rename_i m f
    rw [eval_int] at hx; rw [eval_flt] at hy
    obtain ⟨v, hv, rfl⟩ := flt_some hy
    cases hx
    have hc : FnOps.cmpInt m f = some (if (m : ℝ) < v then .lt else if v < m then .gt else .eq) := FnSem.cmpInt_val m f v (good_int.1 ha) hv
    rw [hc] at h
    simp only [Option.some.injEq, Except.ok.injEq] at h
    subst h
    refine ⟨by simp, by simp, ?_⟩
    rw [decide_eq_true_eq]
    simp only [intCast_re, ofReal_re]
    split_ifs with h1 h2 <;> simp_all
  · rename_i f m
    rw [eval_flt] at hx; rw [eval_int] at hy
    obtain ⟨v, hv, rfl⟩ := flt_some hx
    cases hy
    have hc : FnOps.cmpInt m f = some (if (m : ℝ) < v then .lt else if v < m then .gt else .eq) := FnSem.cmpInt_val m f v (good_int.1 hb) hv
    rw [hc] at h
    simp only [Option.some.injEq, Except.ok.injEq] at h
    subst h
    refine ⟨by simp, by simp, ?_⟩
    rw [decide_eq_true_eq]
    simp only [intCast_re, ofReal_re]
    split_ifs with h1 h2
    · simp; linarith
    · simp [h2]
    · simp; linarith
  · cases h

theorem relSimplify_ok (ρ : Env F) {op : RelOp} {a b : Expr F} {t : Bool} (ha : Good a) (hb : Good b) (h : relSimplify op a b = .ok (some t)) {x y : ℂ}
    (hx : eval ρ a = some x) (hy : eval ρ b = some y) : relVal op x y = some (if t then 1 else 0) := by
  unfold relSimplify at h
  split at h
  · rename_i ab ba h1 h2
    simp only [Except.ok.injEq, Option.some.injEq] at h
    obtain ⟨hxi, hyi, hab⟩ := numLt_ok ρ ha hb h1 hx hy
    obtain ⟨_, _, hba⟩ := numLt_ok ρ hb ha h2 hy hx
    subst h
    cases op
    · simp only [relVal, hxi, hyi, and_self, if_true, relOf, hab]
    · simp only [relVal, hxi, hyi, and_self, if_true, relOf, Bool.or_eq_true, Bool.not_eq_true', hab]
      have : ba = false ↔ x.re ≤ y.re := by rw [← not_lt, ← hba]; simp
      simp only [this]
      by_cases hle : x.re ≤ y.re
      · simp [hle]
      · simp [hle, (not_le.1 hle).le]
    · simp only [relVal, relOf, Bool.and_eq_true, Bool.not_eq_true']
      have e1 : ba = false ↔ x.re ≤ y.re := by rw [← not_lt, ← hba]; simp
      have e2 : ab = false ↔ y.re ≤ x.re := by rw [← not_lt, ← hab]; simp
      have e3 : x = y ↔ (y.re ≤ x.re ∧ x.re ≤ y.re) := by
        rw [Complex.ext_iff, hxi, hyi]
        constructor
        · intro h; rw [h.1]; simp
        · intro h; exact ⟨le_antisymm h.2 h.1, rfl⟩
      simp only [e1, e2, e3]
  · cases h
  · cases h
  · cases h

theorem good_rel {op : RelOp} {a b : Expr F} : Good (.rel op a b) ↔ Good a ∧ Good b := by rw [good_node]; simp [GoodNode]
theorem good_cond {c a b : Expr F} : Good (.cond c a b) ↔ Good c ∧ Good a ∧ Good b := by rw [good_node]; simp [GoodNode]
theorem good_bconst (b : Bool) : Good (.bconst b : Expr F) := by rw [good_node]; simp [GoodNode]
theorem good_iverson {c : Expr F} : Good (.iverson c) ↔ Good c := by rw [good_node]; simp [GoodNode]

theorem relO_symm (ρ : Env F) (a b : Expr F) : relO ρ .eq b a = relO ρ .eq a b := by
  unfold relO
  cases eval ρ a <;> cases eval ρ b <;> simp [relVal, eq_comm]

/-- Comparing two expressions keeps the value of the comparison. -/
theorem relCreate_ok (ρ : Env F) {op : RelOp} {a b r : Expr F} (ha : Good a) (hb : Good b) (h : relCreate op a b = .ok r) :
    Good r ∧ ∀ z, relO ρ op a b = some z → eval ρ r = some z := by
  unfold relCreate at h
  split_ifs at h with hu
  cases hs : relSimplify op a b with
  | error e => simp [hs] at h
  | ok o =>
    cases o with
    | some t =>
      simp only [hs] at h
      cases h
      refine ⟨good_bconst t, fun z hz => ?_⟩
      unfold relO at hz
      cases hx : eval ρ a with
      | none => simp [hx] at hz
      | some x =>
        cases hy : eval ρ b with
        | none => simp [hx, hy] at hz
        | some y =>
          simp only [hx, hy, Option.bind_some] at hz
          rw [eval_bconst, ← hz, relSimplify_ok ρ ha hb hs hx hy]
    | none =>
      simp only [hs] at h
      unfold relNode at h
      split at h
      · split at h
        · cases h
        · cases h
          exact ⟨good_rel.2 ⟨ha, hb⟩, fun z hz => by rw [eval_rel]; exact hz⟩
        · cases h
          exact ⟨good_rel.2 ⟨hb, ha⟩, fun z hz => by rw [eval_rel, relO_symm]; exact hz⟩
      · cases h
        exact ⟨good_rel.2 ⟨ha, hb⟩, fun z hz => by rw [eval_rel]; exact hz⟩

/-- `where` keeps the value of the choice. -/
theorem condCreate_ok (ρ : Env F) (c a b : Expr F) (z : ℂ) (hz : condO (eval ρ c) (eval ρ a) (eval ρ b) = some z) :
    eval ρ (condCreate c a b) = some z := by
  unfold condCreate
  split_ifs with h1 h2 h3
  · rw [eq_of_identical h1, eval_bconst] at hz
    simpa [condO] using hz
  · rw [eq_of_identical h2, eval_bconst] at hz
    simpa [condO] using hz
  · rw [← eq_of_identical h3] at hz
    cases hc : eval ρ c with
    | none => simp [hc, condO] at hz
    | some w =>
      simp only [hc, condO, Option.bind_some] at hz
      split_ifs at hz <;> exact hz
  · rw [eval_cond]; exact hz

theorem condCreate_good {c a b : Expr F} (hc : Good c) (ha : Good a) (hb : Good b) : Good (condCreate c a b) := by
  unfold condCreate
  split_ifs
  · exact ha
  · exact hb
  · exact ha
  · exact good_cond.2 ⟨hc, ha, hb⟩

end Wf.Sym
