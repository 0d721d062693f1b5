import Verif.Sym.NumberSetSpec
import Verif.Sym.SumLemmas
import Mathlib.Analysis.SpecialFunctions.Arsinh

/-! # Lemmas about number sets -/

namespace Wf.Sym
open Complex

variable {F : Type} [DecidableEq F] [FloatSem F]

theorem mem_of_real {s : NSet} (h : s.isReal = true) {z : ℂ} (hz : s.Mem z) : z.im = 0 := by
  cases s <;> simp_all [NSet.isReal, NSet.Mem]

theorem mem_nonneg {s : NSet} (h : s.isNonNeg = true) {z : ℂ} (hz : s.Mem z) : z.im = 0 ∧ 0 ≤ z.re := by
  cases s <;> simp_all [NSet.isNonNeg, NSet.Mem]
  exact hz.2.le

theorem eq_ofReal {z : ℂ} (h : z.im = 0) : z = (z.re : ℂ) := by apply Complex.ext <;> simp [h]

theorem real_cases {s : NSet} (h : s.isReal = true) {z : ℂ} (hz : s.Mem z) :
    ∃ x : ℝ, z = x ∧ (s = .positive → 0 < x) ∧ (s = .nonNegative → 0 ≤ x) := by
  refine ⟨z.re, eq_ofReal (mem_of_real h hz), ?_, ?_⟩ <;> rintro rfl
  · exact hz.2
  · exact hz.2

theorem mem_max_left {a b : NSet} {z : ℂ} (h : a.Mem z) : (a.max b).Mem z := by
  cases a <;> cases b <;> simp_all [NSet.max, NSet.index, NSet.Mem]
  exact h.2.le

theorem mem_max_right {a b : NSet} {z : ℂ} (h : b.Mem z) : (a.max b).Mem z := by
  cases a <;> cases b <;> simp_all [NSet.max, NSet.index, NSet.Mem]
  exact h.2.le

theorem combineMul_mem {a b : NSet} {x y : ℂ} (hx : a.Mem x) (hy : b.Mem y) : (combineMul a b).Mem (x * y) := by
  cases a <;> cases b <;> simp_all [combineMul, NSet.max, NSet.index, NSet.Mem] <;>
    (try (first | exact mul_pos hx.2 hy.2 | exact mul_nonneg hx.2.le hy.2 | exact mul_nonneg hx.2 hy.2.le | exact mul_nonneg hx.2 hy.2))

theorem combineAdd_mem {a b : NSet} {x y : ℂ} (hx : a.Mem x) (hy : b.Mem y) : (combineAdd a b).Mem (x + y) := by
  cases a <;> cases b <;> simp_all [combineAdd, NSet.max, NSet.index, NSet.Mem] <;>
    (try (obtain ⟨_, h1⟩ := hx; obtain ⟨_, h2⟩ := hy; linarith))

theorem foldl_mem {f : NSet → NSet → NSet} {op : ℂ → ℂ → ℂ} (hf : ∀ {a b x y}, NSet.Mem a x → NSet.Mem b y → NSet.Mem (f a b) (op x y)) :
    ∀ {ss : List NSet} {vs : List ℂ} {s : NSet} {v : ℂ}, s.Mem v → List.Forall₂ NSet.Mem ss vs →
      (ss.foldl (fun a b => if a = .unknown then a else f a b) s).Mem (vs.foldl op v) := by
  intro ss
  induction ss with
  | nil => intro vs s v h hs; cases hs; exact h
  | cons a ss ih =>
    intro vs s v h hs
    cases hs with
    | cons h1 h2 =>
      rw [List.foldl_cons, List.foldl_cons]
      refine ih ?_ h2
      split
      · rename_i hu; rw [hu]; trivial
      · exact hf h h1

theorem prodO_vals {l : List (Option ℂ)} {z : ℂ} (h : prodO l = some z) : ∃ vs : List ℂ, l = vs.map some ∧ z = vs.prod := by
  induction l generalizing z with
  | nil => cases h; exact ⟨[], rfl, rfl⟩
  | cons a l ih =>
    rw [prodO_cons, mulO_eq_some] at h
    obtain ⟨x, y, rfl, hy, rfl⟩ := h
    obtain ⟨vs, rfl, rfl⟩ := ih hy
    exact ⟨x :: vs, rfl, by simp⟩

theorem sumO_vals {l : List (Option ℂ)} {z : ℂ} (h : sumO l = some z) : ∃ vs : List ℂ, l = vs.map some ∧ z = vs.sum := by
  induction l generalizing z with
  | nil => cases h; exact ⟨[], rfl, rfl⟩
  | cons a l ih =>
    rw [sumO_cons, addO_eq_some] at h
    obtain ⟨x, y, rfl, hy, rfl⟩ := h
    obtain ⟨vs, rfl, rfl⟩ := ih hy
    exact ⟨x :: vs, rfl, by simp⟩

theorem seqO_vals {l : List (Option ℂ)} {vs : List ℂ} (h : seqO l = some vs) : l = vs.map some := by
  induction l generalizing vs with
  | nil => cases h; rfl
  | cons a l ih =>
    cases a with
    | none => cases h
    | some x =>
      simp only [seqO, Option.bind_some, Option.map_eq_some_iff] at h
      obtain ⟨ws, hw, rfl⟩ := h
      rw [ih hw]; rfl

theorem foldl_mul_prod (vs : List ℂ) (v : ℂ) : vs.foldl (· * ·) v = v * vs.prod := by
  induction vs generalizing v with
  | nil => simp
  | cons a vs ih => rw [List.foldl_cons, ih, List.prod_cons, mul_assoc]

theorem foldl_add_sum (vs : List ℂ) (v : ℂ) : vs.foldl (· + ·) v = v + vs.sum := by
  induction vs generalizing v with
  | nil => simp
  | cons a vs ih => rw [List.foldl_cons, ih, List.sum_cons, add_assoc]

theorem combineAll_mul {ss : List NSet} {vs : List ℂ} (h : List.Forall₂ NSet.Mem ss vs) : (combineAll combineMul ss).Mem vs.prod := by
  cases h with
  | nil => trivial
  | cons h1 h2 => rw [List.prod_cons, ← foldl_mul_prod]; exact foldl_mem combineMul_mem h1 h2

theorem combineAll_add {ss : List NSet} {vs : List ℂ} (h : List.Forall₂ NSet.Mem ss vs) : (combineAll combineAdd ss).Mem vs.sum := by
  cases h with
  | nil => trivial
  | cons h1 h2 => rw [List.sum_cons, ← foldl_add_sum]; exact foldl_mem combineAdd_mem h1 h2

theorem numericSet_mem {pos neg : Bool} {x : ℝ} (hp : pos = true → 0 < x) (hn : pos = false → neg = false → 0 ≤ x) : (numericSet pos neg).Mem (x : ℂ) := by
  cases pos <;> cases neg <;> simp_all [numericSet, NSet.Mem]

/-- The rule for powers. -/
theorem powSet_mem {b e : NSet} {even : Bool} {x y z : ℂ} (hx : b.Mem x) (hy : e.Mem y) (he : even = true → ∃ n : ℤ, Even n ∧ y = n)
    (ht : b = .real → 0 ≤ x.re ∨ ∃ n : ℤ, y = n) (h : powVal x y = some z) : (powSet b e even).Mem z := by
  unfold powSet
  by_cases h1 : b = .complex ∨ e = .complex ∨ b = .unknown ∨ e = .unknown
  · rw [if_pos h1]; trivial
  rw [if_neg h1]
  by_cases h2 : (b.containsZero && !e.isNonNeg) = true
  · rw [if_pos h2]; trivial
  rw [if_neg h2]
  by_cases h3 : b.isReal = true
  swap
  · rw [if_neg h3]; trivial
  rw [if_pos h3]
  obtain ⟨u, rfl, hup, hun⟩ := real_cases h3 hx
  have her : e.isReal = true := by revert h1; cases e <;> simp [NSet.isReal]
  obtain ⟨w, rfl, hwp, hwn⟩ := real_cases her hy
  have nonnegcase : 0 ≤ u → z.im = 0 ∧ 0 ≤ z.re ∧ (0 < u → 0 < z.re) := by
    intro hu
    rcases powVal_cases h with ⟨hne, rfl⟩ | ⟨h0, _, rfl⟩
    · rw [← Complex.ofReal_cpow hu]
      simp only [Complex.ofReal_im, Complex.ofReal_re]
      exact ⟨trivial, Real.rpow_nonneg hu w, fun hu => Real.rpow_pos_of_pos hu w⟩
    · have : u = 0 := by exact_mod_cast h0
      simp [this]
  have intcase : ∀ n : ℤ, (w : ℂ) = n → z.im = 0 ∧ (Even n → 0 ≤ z.re ∧ (u ≠ 0 → 0 < z.re)) := by
    intro n hn
    rcases powVal_cases h with ⟨hne, rfl⟩ | ⟨h0, _, rfl⟩
    · rw [hn, Complex.cpow_intCast, ← Complex.ofReal_zpow]
      simp only [Complex.ofReal_im, Complex.ofReal_re]
      have hu : u ≠ 0 := by exact_mod_cast hne
      exact ⟨trivial, fun hev => ⟨hev.zpow_nonneg u, fun _ => hev.zpow_pos hu⟩⟩
    · have : u = 0 := by exact_mod_cast h0
      simp [this]
  by_cases h4 : even = true
  · rw [if_pos h4]
    obtain ⟨n, hev, hn⟩ := he h4
    obtain ⟨hi, hc⟩ := intcase n hn
    obtain ⟨hc0, hc1⟩ := hc hev
    cases hb : b.containsZero
    · have hbp : b = .positive := by revert hb; cases b <;> simp [NSet.containsZero]
      exact ⟨hi, hc1 (hup hbp).ne'⟩
    · exact ⟨hi, hc0⟩
  · rw [if_neg h4]
    by_cases h5 : (b.isNonNeg && e.isNonNeg) = true
    · rw [if_pos h5]
      rw [Bool.and_eq_true] at h5
      have hu : 0 ≤ u := by simpa using (mem_nonneg h5.1 hx).2
      obtain ⟨hi, h0, hp⟩ := nonnegcase hu
      have hbb := h5.1
      revert hbb hup
      cases b <;> simp [NSet.isNonNeg, NSet.Mem, hi, h0]
      exact hp
    · rw [if_neg h5]
      show z.im = 0
      by_cases hbr : b = .real
      · rcases ht hbr with hu | ⟨n, hn⟩
        · exact (nonnegcase (by simpa using hu)).1
        · exact (intcase n hn).1
      · have hu : 0 ≤ u := by
          revert hup hun hbr h3
          cases b <;> simp [NSet.isReal]
          exact fun h => h.le
        exact (nonnegcase hu).1

theorem isEvenInt_ok {e : Expr F} (h : isEvenInt e = true) : ∃ n : Int, e = .int n ∧ Even n := by
  unfold isEvenInt at h
  split at h
  · rename_i n
    exact ⟨n, rfl, Int.even_iff.2 (by simpa [cIsEven] using h)⟩
  · cases h

theorem fnSet_nil (f : BuiltIn) : fnSet f [] = .unknown := by simp [fnSet]

theorem fnSet_unknown {f : BuiltIn} {ss : List NSet} (h : .unknown ∈ ss) : fnSet f ss = .unknown := by
  unfold fnSet
  rw [if_pos]
  rw [List.any_eq_true]
  exact ⟨_, h, by simp⟩

/-- The rule for functions. -/
theorem fnSet_mem {f : BuiltIn} {ss : List NSet} {vs : List ℂ} {z : ℂ} (h : List.Forall₂ NSet.Mem ss vs)
    (hlog : f = .log → ∀ v, vs = [v] → ss = [.positive] → 1 < v.re) (hv : fnVal f vs = some z) : (fnSet f ss).Mem z := by
  by_cases hu : .unknown ∈ ss
  · rw [fnSet_unknown hu]; trivial
  have hany : ss.any (fun s => decide (s = .unknown)) = false := by
    rw [List.any_eq_false]
    intro s hs; simp; rintro rfl; exact hu hs
  cases h with
  | nil => rw [fnSet_nil]; trivial
  | @cons a v ss vs h1 h2 =>
    cases h2 with
    | cons h3 h4 =>
      cases h4 with
      | cons => cases f <;> simp [fnVal] at hv
      | nil =>
        cases f <;> simp [fnVal] at hv
        unfold fnSet
        rw [hany]
        trivial
    | nil =>
      have hne : a ≠ .unknown := by rintro rfl; exact hu (by simp)
      have realArg : a.isReal = true → ∃ x : ℝ, v = x ∧ (a = .positive → 0 < x) ∧ (a = .nonNegative → 0 ≤ x) := fun h => real_cases h h1
      unfold fnSet
      rw [hany]
      simp only [Bool.false_eq_true, if_false]
      cases f <;> simp only [fnVal, Option.some.injEq, reduceCtorEq] at hv ⊢
      case cos =>
        subst hv
        split
        · rename_i hr
          obtain ⟨x, rfl, -⟩ := realArg hr
          rw [← Complex.ofReal_cos]; exact Complex.ofReal_im _
        · trivial
      case sin =>
        subst hv
        split
        · rename_i hr
          obtain ⟨x, rfl, -⟩ := realArg hr
          rw [← Complex.ofReal_sin]; exact Complex.ofReal_im _
        · trivial
      case cosh =>
        subst hv
        split
        · rename_i hr
          obtain ⟨x, rfl, -⟩ := realArg hr
          rw [← Complex.ofReal_cosh]
          exact ⟨Complex.ofReal_im _, by rw [Complex.ofReal_re]; exact Real.cosh_pos x⟩
        · trivial
      case sinh =>
        subst hv
        split
        · rename_i hr
          obtain ⟨x, rfl, hp, hn⟩ := realArg hr
          rw [← Complex.ofReal_sinh]
          cases a
          · exact ⟨Complex.ofReal_im _, by rw [Complex.ofReal_re]; exact Real.sinh_pos_iff.2 (hp rfl)⟩
          · exact ⟨Complex.ofReal_im _, by rw [Complex.ofReal_re]; exact Real.sinh_nonneg_iff.2 (hn rfl)⟩
          · exact Complex.ofReal_im _
          · trivial
          · trivial
        · trivial
      case tanh =>
        split at hv
        · cases hv
        cases hv
        split
        · rename_i hr
          obtain ⟨x, rfl, hp, hn⟩ := realArg hr
          rw [← Complex.ofReal_tanh]
          have e : Real.tanh x = Real.sinh x / Real.cosh x := Real.tanh_eq_sinh_div_cosh x
          cases a
          · exact ⟨Complex.ofReal_im _, by rw [Complex.ofReal_re, e]; exact div_pos (Real.sinh_pos_iff.2 (hp rfl)) (Real.cosh_pos x)⟩
          · exact ⟨Complex.ofReal_im _, by rw [Complex.ofReal_re, e]; exact div_nonneg (Real.sinh_nonneg_iff.2 (hn rfl)) (Real.cosh_pos x).le⟩
          · exact Complex.ofReal_im _
          · trivial
          · trivial
        · trivial
      case log =>
        split at hv
        · cases hv
        cases hv
        split
        · rename_i hp
          subst hp
          obtain ⟨x, rfl, hp, hn⟩ := realArg rfl
          have h1 := hlog rfl _ rfl rfl
          rw [Complex.ofReal_re] at h1
          rw [← Complex.ofReal_log (by linarith)]
          exact ⟨Complex.ofReal_im _, by rw [Complex.ofReal_re]; exact Real.log_pos h1⟩
        · trivial
      case exp =>
        subst hv
        split
        · rename_i hr
          obtain ⟨x, rfl, -⟩ := realArg hr
          rw [← Complex.ofReal_exp]
          exact ⟨Complex.ofReal_im _, by rw [Complex.ofReal_re]; exact Real.exp_pos x⟩
        · trivial
      case abs =>
        subst hv
        split
        · rename_i hp
          subst hp
          obtain ⟨x, rfl, hp, hn⟩ := realArg rfl
          exact ⟨Complex.ofReal_im _, by rw [Complex.ofReal_re, norm_pos_iff]; exact_mod_cast (hp rfl).ne'⟩
        · exact ⟨Complex.ofReal_im _, by rw [Complex.ofReal_re]; exact norm_nonneg _⟩
      case signum =>
        split
        · rename_i hr
          obtain ⟨x, rfl, hp, hn⟩ := realArg hr
          by_cases h0 : (x : ℂ) = 0
          · rw [if_pos h0] at hv
            cases hv
            have : x = 0 := by exact_mod_cast h0
            subst this
            cases a
            · exact absurd (hp rfl) (lt_irrefl _)
            all_goals simp [NSet.Mem]
          · rw [if_neg h0] at hv
            cases hv
            rw [← Complex.ofReal_div]
            cases a
            · exact ⟨Complex.ofReal_im _, by rw [Complex.ofReal_re]; exact div_pos (hp rfl) (norm_pos_iff.2 h0)⟩
            · exact ⟨Complex.ofReal_im _, by rw [Complex.ofReal_re]; exact div_nonneg (hn rfl) (norm_nonneg _)⟩
            · exact Complex.ofReal_im _
            · trivial
            · trivial
        · trivial
      case floor =>
        subst hv
        by_cases hr : a.isReal = true
        · obtain ⟨x, rfl, hp, hn⟩ := realArg hr
          have him : ((⌊((x : ℂ)).im⌋ : ℤ) : ℝ) = 0 := by simp
          split
          · rename_i h
            exact ⟨him, by
              show (0 : ℝ) ≤ ((⌊(x : ℂ).re⌋ : ℤ) : ℝ)
              rw [Complex.ofReal_re]; exact_mod_cast Int.floor_nonneg.2 (hp h).le⟩
          · rename_i h
            cases a
            · exact absurd rfl h
            · exact ⟨him, by
              show (0 : ℝ) ≤ ((⌊(x : ℂ).re⌋ : ℤ) : ℝ)
              rw [Complex.ofReal_re]; exact_mod_cast Int.floor_nonneg.2 (hn rfl)⟩
            · exact him
            · trivial
            · trivial
        · cases a <;> simp [NSet.isReal] at hr <;> trivial
      all_goals trivial

/-! ### The whole classification -/

theorem numberSets_eq (as : List (Expr F)) : numberSets as = as.map numberSet := by
  induction as with
  | nil => rw [numberSets]; rfl
  | cons a as ih => rw [numberSets, ih]; rfl

theorem tames_iff {ρ : Env F} {l : List (Expr F)} : Tames ρ l ↔ ∀ t ∈ l, Tame ρ t := by
  induction l with
  | nil => simp [Tames]
  | cons a l ih => rw [Tames, ih]; simp

theorem forall2_of_vals {ρ : Env F} {as : List (Expr F)} {vs : List ℂ} (h : ∀ a ∈ as, ∀ z, eval ρ a = some z → (numberSet a).Mem z)
    (hv : as.map (eval ρ) = vs.map some) : List.Forall₂ NSet.Mem (as.map numberSet) vs := by
  induction as generalizing vs with
  | nil => cases vs with
    | nil => exact .nil
    | cons => cases hv
  | cons a as ih =>
    cases vs with
    | nil => cases hv
    | cons v vs =>
      rw [List.map_cons, List.map_cons, List.cons.injEq] at hv
      exact .cons (h a (by simp) v hv.1) (ih (fun b hb => h b (by simp [hb])) hv.2)

theorem numericSet_flt {f : F} {x : ℝ} (h : FloatSem.val f = some x) : (numericSet (fltIsPos f) (fltIsNeg f)).Mem (x : ℂ) := by
  have h0 := FloatSem.val_ofInt (F := F) 0 (inI64_small (by decide) (by decide))
  have hp : fltIsPos f = true ↔ 0 < x := by
    have := FloatSem.lt_iff (FloatOps.ofInt 0) f _ _ h0 h
    simpa [fltIsPos] using this
  have hn : fltIsNeg f = true ↔ x < 0 := by
    have := FloatSem.lt_iff f (FloatOps.ofInt 0) _ _ h h0
    simpa [fltIsNeg] using this
  refine numericSet_mem hp.1 ?_
  intro _ h
  by_contra hx
  rw [hn.2 (by linarith)] at h; cases h

theorem ratVal_pos_iff {r : RatC} (h : r.Canonical) : (0 < r.n ↔ (0 : ℝ) < (r.val : ℝ)) ∧ (r.n < 0 ↔ ((r.val : ℚ) : ℝ) < 0) := by
  have hd : (0 : ℚ) < r.d := by exact_mod_cast h.2.2.1
  have e : r.val = (r.n : ℚ) / r.d := rfl
  constructor
  · rw [show ((0 : ℝ) < (r.val : ℝ)) ↔ (0 : ℚ) < r.val by norm_cast, e, div_pos_iff_of_pos_right hd]; norm_cast
  · rw [show (((r.val : ℚ) : ℝ) < 0) ↔ r.val < 0 by norm_cast, e, div_lt_iff₀ hd, zero_mul]; norm_cast

theorem numberSet_mem {ρ : Env F} (hρ : ρ.Respects) : ∀ e : Expr F, Good e → Tame ρ e → ∀ z, eval ρ e = some z → (numberSet e).Mem z := by
  intro e
  refine Expr.rec (motive_1 := fun e => Good e → Tame ρ e → ∀ z, eval ρ e = some z → (numberSet e).Mem z)
    (motive_2 := fun es => (∀ e ∈ es, Good e) → (∀ e ∈ es, Tame ρ e) → ∀ e ∈ es, ∀ z, eval ρ e = some z → (numberSet e).Mem z)
    ?_ (by intro _ _ e he; cases he) ?_ e
  swap
  · intro a as iha ihas hg ht e he
    rcases List.mem_cons.1 he with rfl | he
    · exact iha (hg _ (by simp)) (ht _ (by simp))
    · exact ihas (fun e he => hg e (by simp [he])) (fun e he => ht e (by simp [he])) e he
  intro h as ih hg ht z hz
  obtain ⟨hgn, hgs⟩ := good_node.1 hg
  rw [Tame] at ht
  have ih := ih hgs (tames_iff.1 ht.2)
  have htn := ht.1
  rw [numberSet.eq_def]
  rw [eval, evals_eq] at hz
  cases h <;> dsimp only
  case flt f =>
    cases as with
    | cons => cases hz
    | nil =>
      obtain ⟨x, hx, rfl⟩ := Option.map_eq_some_iff.1 hz
      exact numericSet_flt hx
  case int n =>
    cases as with
    | cons => cases hz
    | nil =>
      cases hz
      have := numericSet_mem (pos := decide (0 < n)) (neg := decide (n < 0)) (x := (n : ℝ)) (by simp) (by
        simp only [decide_eq_false_iff_not, not_lt]; intro _ h; exact_mod_cast h)
      simpa using this
  case rat r =>
    cases as with
    | cons => cases hz
    | nil =>
      cases hz
      obtain ⟨h1, h2⟩ := ratVal_pos_iff hgn.1
      have := numericSet_mem (pos := ratIsPositive r) (neg := ratIsNegative r) (x := (r.val : ℝ))
        (by simp only [ratIsPositive, decide_eq_true_eq]; exact h1.1)
        (by
          simp only [ratIsNegative, decide_eq_false_iff_not]
          intro _ hn
          by_contra hc
          exact hn (h2.2 (by linarith)))
      simpa using this
  case const c =>
    cases as with
    | cons => cases hz
    | nil =>
      cases hz
      refine ⟨Complex.ofReal_im _, ?_⟩
      rw [Complex.ofReal_re]
      cases c
      · exact Real.exp_pos 1
      · exact Real.pi_pos
  case var n s =>
    cases as with
    | cons => cases hz
    | nil => exact hρ.var n s z hz
  case argVar n i t =>
    cases as with
    | cons => cases hz
    | nil => exact hρ.arg n i t z hz
  case uniq i s =>
    cases as with
    | cons => cases hz
    | nil => exact hρ.uniq i s z hz
  case mul =>
    obtain ⟨vs, hvs, rfl⟩ := prodO_vals hz
    rw [numberSets_eq]
    exact combineAll_mul (forall2_of_vals ih hvs)
  case add =>
    obtain ⟨vs, hvs, rfl⟩ := sumO_vals hz
    rw [numberSets_eq]
    exact combineAll_add (forall2_of_vals ih hvs)
  case pow =>
    rcases as with _ | ⟨b, _ | ⟨e, _ | ⟨c, as⟩⟩⟩
    · cases hz
    · cases hz
    · have hz : powO (eval ρ b) (eval ρ e) = some z := hz
      rw [powO_eq_some] at hz
      obtain ⟨x, y, hx, hy, hp⟩ := hz
      simp only [numberSets_eq, List.map_cons, List.map_nil]
      refine powSet_mem (ih b (by simp) x hx) (ih e (by simp) y hy) ?_ (fun hb => htn hb x y hx hy) hp
      intro he
      obtain ⟨n, rfl, hn⟩ := isEvenInt_ok (e := e) (by simpa [secondArg] using he)
      rw [eval_int] at hy
      cases hy
      exact ⟨n, hn, rfl⟩
    · cases hz
  case fn f =>
    obtain ⟨vs, hvs, hv⟩ := Option.bind_eq_some_iff.1 hz
    have hvs := seqO_vals hvs
    rw [numberSets_eq]
    refine fnSet_mem (forall2_of_vals ih hvs) ?_ hv
    rintro rfl v rfl hs
    rcases as with _ | ⟨x, _ | ⟨y, as⟩⟩
    · cases hvs
    · rw [List.map_cons, List.map_nil, List.cons.injEq] at hs
      rw [List.map_cons, List.map_cons, List.map_nil, List.map_nil, List.cons.injEq] at hvs
      exact htn hs.1 v hvs.1
    · simp at hvs
  case uneval =>
    rcases as with _ | ⟨a, _ | ⟨b, as⟩⟩
    · cases hz
    · rw [numberSets_eq]; exact ih a (by simp) z hz
    · cases hz
  case stop =>
    rcases as with _ | ⟨a, _ | ⟨b, as⟩⟩
    · cases hz
    · rw [numberSets_eq]; exact ih a (by simp) z hz
    · cases hz
  case iverson =>
    rcases as with _ | ⟨a, _ | ⟨b, as⟩⟩
    · cases hz
    · have hz : eval ρ a = some z := hz
      have ha := ih a (by simp) z hz
      obtain ⟨g, bs⟩ := a
      cases g <;> simp only [TameNode] at htn
      case bconst b =>
        cases bs with
        | cons => rw [eval, evals_eq] at hz; cases hz
        | nil =>
          rw [eval, evals_eq] at hz
          cases hz
          show NSet.Mem .nonNegative _
          split <;> simp [NSet.Mem]
      case rel op => rw [numberSet.eq_def] at ha; exact ha
    · cases hz
  case rel op =>
    rcases as with _ | ⟨a, _ | ⟨b, _ | ⟨c, as⟩⟩⟩
    · cases hz
    · cases hz
    · obtain ⟨x, _, hz⟩ := Option.bind_eq_some_iff.1 hz
      obtain ⟨y, _, hz⟩ := Option.bind_eq_some_iff.1 hz
      cases op <;> simp only [relVal] at hz
      · split at hz
        · cases hz; split <;> simp [NSet.Mem]
        · cases hz
      · split at hz
        · cases hz; split <;> simp [NSet.Mem]
        · cases hz
      · cases hz; split <;> simp [NSet.Mem]
    · cases hz
  case cond =>
    rcases as with _ | ⟨c, _ | ⟨a, _ | ⟨b, _ | ⟨d, as⟩⟩⟩⟩
    · cases hz
    · cases hz
    · cases hz
    · obtain ⟨w, _, hz⟩ := Option.bind_eq_some_iff.1 (show condO (eval ρ c) (eval ρ a) (eval ρ b) = some z from hz)
      simp only [numberSets_eq, List.map_cons, List.map_nil]
      split at hz
      · exact mem_max_left (ih a (by simp) z hz)
      · split at hz
        · exact mem_max_right (ih b (by simp) z hz)
        · cases hz
    · cases hz
  case elem i =>
    have hz : ρ.opaq ρ.leaf (.node (.elem i) as) = some z := hz
    have hr := hρ.elem i as z hz
    show (elemSet i as).Mem z
    unfold elemSet
    split
    · exact absurd htn (by simp [TameNode])
    · exact hr
  all_goals (first | trivial | cases as <;> cases hz)

end Wf.Sym
