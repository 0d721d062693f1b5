import Verif.Sym.ChainWitness
import Verif.Sym.ExampleTools
import Mathlib.Tactic.FinCases

/-! # Property C66: derivatives of declared functions obey the chain rule -/

namespace Wf.Sym
open Complex Filter Topology

variable {F : Type} [DecidableEq F] [FnSem F]

/-- **C66**. Let deferred derivatives and substitutions mean what they say, and let the variables that are made be new. Let `e`, which may contain
invocations of declared functions, deferred derivatives and deferred substitutions, be smooth at `t₀` as a function of the variable `v`. Then the
value of `e` is a differentiable function of `v` at `t₀`, and the value of `diff(e, v)` is its derivative. -/
theorem C66_chain_rule (S : Env F → Prop) (ρ : Env F) (hC : Calculus ρ) (t₀ : ℝ) (n m k j : Nat) (v : Head F) (beh : NonDiff) (fresh : Expr F → Nat → Nat)
    (hfresh : IsFresh fresh) (e d : Expr F) (hv : v.isVar = true) (hg : Good e) (h₀ : S (along ρ (.node v []) t₀))
    (hs : Smooth (Declared S j beh ρ v t₀) beh S (along ρ (.node v [])) t₀ e)
    (h : LawfulRunOn S n (fun _ K => diff (chainCfg K m fresh k (.node v []) beh) e 1) d) :
    Good d ∧ ∃ (g : ℝ → ℂ) (g' : ℂ), (∀ᶠ t in 𝓝 t₀, eval (along ρ (.node v []) t) e = some (g t)) ∧ HasDerivAt g g' t₀ ∧
      eval (along ρ (.node v []) t₀) d = some g' := by
  obtain ⟨lic, hl, hr⟩ := h.lawful
  obtain ⟨g, g', h1, h2⟩ := chain_ok (n := n) (m := m) hfresh hl j (k := k) hC hv h₀ hs hg
  have h3 := h2 d (diff_one hr)
  exact ⟨h3.1, g, g', h1.1, h1.2, h3.2⟩

/-- **C66** (higher order). Differentiating repeatedly gives the higher derivatives, where all the derivatives taken on the way are smooth. -/
theorem C66_repeated (S : Env F → Prop) (ρ : Env F) (hC : Calculus ρ) (U : Set ℝ) (hU : IsOpen U) (n m k j : Nat) (v : Head F) (beh : NonDiff)
    (fresh : Expr F → Nat → Nat) (hfresh : IsFresh fresh) (reps : Nat) (es : Nat → Expr F) (hv : v.isVar = true) (hg : Good (es 0))
    (hS : ∀ t ∈ U, S (along ρ (.node v []) t)) (hs : ∀ i < reps, ∀ t ∈ U, Smooth (Declared S j beh ρ v t) beh S (along ρ (.node v [])) t (es i))
    (h : ∀ i < reps, LawfulRunOn S n (fun _ K => diff (chainCfg K m fresh k (.node v []) beh) (es i) 1) (es (i + 1)))
    (g : ℝ → ℂ) (hval : ∀ t ∈ U, eval (along ρ (.node v []) t) (es 0) = some (g t)) :
    diff (chainCfg (ctors codeLic n) m fresh k (.node v []) beh) (es 0) reps = .ok (es reps) ∧
      ∀ t ∈ U, eval (along ρ (.node v []) t) (es reps) = some (iteratedDeriv reps g t) := by
  constructor
  · have hok : diffArgOk (.node v [] : Expr F) = true := by cases v <;> first | rfl | cases hv
    unfold diff
    rw [if_neg (by omega)]
    unfold chainCfg
    dsimp only
    rw [if_pos hok, Int.toNat_natCast]
    clear hs hval hg
    induction reps generalizing es with
    | zero => rfl
    | succ l ih =>
      have h1 := diff_one (h 0 (by omega)).code
      unfold diffTimes
      unfold chainCfg at h1
      rw [h1]
      exact ih (fun i => es (i + 1)) (fun i hi => h (i + 1) (by omega))
  · induction reps generalizing es g with
    | zero => simpa using hval
    | succ l ih =>
      rw [iteratedDeriv_succ']
      have h1 : ∀ t ∈ U, Good (es 1) ∧ eval (along ρ (.node v []) t) (es 1) = some (deriv g t) := by
        intro t ht
        obtain ⟨hg1, g1, g', e1, e2, e3⟩ := C66_chain_rule S ρ hC t n m k j v beh fresh hfresh (es 0) (es 1) hv hg (hS t ht) (hs 0 (by omega) t ht) (h 0 (by omega))
        refine ⟨hg1, ?_⟩
        have : g =ᶠ[𝓝 t] g1 := by
          filter_upwards [hU.mem_nhds ht, e1] with s hs1 hs2
          rw [hval s hs1] at hs2
          exact Option.some.inj hs2
        rw [e3, (e2.congr_of_eventuallyEq this).deriv]
      rcases U.eq_empty_or_nonempty with rfl | ⟨t, ht⟩
      · simp
      · exact ih (fun i => es (i + 1)) (h1 t ht).1 (fun i hi => hs (i + 1) (by omega)) (fun i hi => h (i + 1) (by omega)) (deriv g)
          (fun s hs => (h1 s hs).2)

/-- **C66** (a function as the variable). The derivative of an invocation with respect to itself is one. -/
theorem C66_self (K : Ctors F) (m k : Nat) (fresh : Expr F → Nat → Nat) (beh : NonDiff) (n : String) (as d : List (Expr F))
    (h : diffs (chainCfg K m fresh k (.symfn n as) beh) as = .ok d) :
    diff (chainCfg K m fresh k (.symfn n as) beh) (.symfn n as) 1 = .ok (.int 1) := by
  have key : diffE (chainCfg K m fresh k (.symfn n as) beh) (.symfn n as) = .ok (.int 1) := by
    have h1 : diffE (chainCfg K m fresh k (.symfn n as) beh) (.symfn n as) = andThen (diffs (chainCfg K m fresh k (.symfn n as) beh) as)
        (chainRules K m fresh k (.symfn n as) (.symfn n as)) := by rw [diffE]; rfl
    rw [h1, h]
    show chainRules K m fresh k (.symfn n as) (.node (.symfn n) as) d = _
    unfold chainRules diffSymfn
    rw [if_pos ((identical_iff _ _).2 rfl)]
  unfold diff
  rw [if_neg (by decide), if_pos (by rfl)]
  show diffTimes _ 1 _ = _
  unfold diffTimes
  rw [key]; rfl

/-- With the abstract behaviour the derivative of `floor(x ** 2)` is kept as a deferred derivative, but the derivative of the deferred substitution of
`x ** 2` for `y` in `floor(y)` is zero: the derivative with respect to the variable that is replaced is taken with the default behaviour. -/
theorem C66_abstract_refuted :
    let sq : Expr ℝ := .pow vx (.int 2)
    let D := chainCfg (ctors codeLic 8) 3 freshAbove 2 vx .abstract
    diff D (.fn .floor [sq]) 1 = .ok (.deriv (.fn .floor [sq]) vx 1) ∧ diff D (.subst (.fn .floor [vy]) vy sq) 1 = .ok (.int 0) := by
  decide +kernel

/-! ## Non-vacuity -/

/-- A declared function is the product of its two arguments. -/
def timesFn : String → List ℂ → Option ℂ := fun _ vs =>
  match vs with
  | [a, b] => some (a * b)
  | _ => none

/-- All variables are zero, and declared functions are products. -/
noncomputable def timesEnv : Env ℝ := calculusEnv (fun _ => some 0) timesFn

theorem eval_vx (ρ : Env ℝ) (t : ℝ) : eval (along ρ vx t) vx = some (t : ℂ) := by
  rw [eval_var_node rfl]; exact setVar_self _

theorem smooth_vx {A : Expr ℝ → List (Expr ℝ) → Prop} {beh : NonDiff} {S : Env ℝ → Prop} {ρ : Env ℝ} {t₀ : ℝ} : Smooth A beh S (along ρ vx) t₀ vx :=
  .leaf rfl rfl (eval_vx ρ t₀)

theorem eval_sq (ρ : Env ℝ) (t : ℝ) : eval (along ρ vx t) (.pow vx (.int 2)) = some (((t ^ 2 : ℝ)) : ℂ) := by
  rw [eval_pow, eval_vx, eval_int]
  by_cases h : t = 0
  · subst h
    simp [powO, powVal_zero_pos]
  · have h' : (t : ℂ) ≠ 0 := by exact_mod_cast h
    simp [powO, powVal_of_ne h']

theorem eval_sin (ρ : Env ℝ) (t : ℝ) : eval (along ρ vx t) (.fn .sin [vx]) = some ((Real.sin t : ℝ) : ℂ) := by
  rw [eval_fn1, fn1, eval_vx]; simp [fnVal]

theorem smooth_sq {A : Expr ℝ → List (Expr ℝ) → Prop} {beh : NonDiff} {ρ : Env ℝ} {t₀ : ℝ} :
    Smooth A beh (fun _ => True) (along ρ vx) t₀ (.pow vx (.int 2)) :=
  .powZero (ρ₁ := along ρ vx 1) (z := ((1 : ℝ) : ℂ)) smooth_vx (by norm_num) trivial (eval_vx ρ 1) (by simp)

theorem smooth_sin {A : Expr ℝ → List (Expr ℝ) → Prop} {beh : NonDiff} {S : Env ℝ → Prop} {ρ : Env ℝ} {t₀ : ℝ} :
    Smooth A beh S (along ρ vx) t₀ (.fn .sin [vx]) := .fn smooth_vx (eval_vx ρ t₀) trivial

/-- `diff(f(x ** 2, sin(x)), x)` for a declared function `f` -/
example (t₀ : ℝ) :
    let u : Expr ℝ := .node (.uniq 0 .positive) []
    let sq : Expr ℝ := .pow vx (.int 2)
    let sn : Expr ℝ := .fn .sin [vx]
    LawfulRunOn (fun _ => True) 10 (fun _ K => diff (chainCfg K 3 freshAbove 2 vx .constant) (.symfn "f" [sq, sn]) 1)
      (.add [.mul [.int 2, vx, .subst (.deriv (.symfn "f" [u, sn]) u 1) u sq], .mul [.subst (.deriv (.symfn "f" [sq, u]) u 1) u sn, .fn .cos [vx]]]) ∧
    Calculus timesEnv ∧ IsFresh (freshAbove (F := ℝ)) ∧
    Smooth (Declared (fun _ => True) 0 .constant timesEnv (.var "x" .positive) t₀) .constant (fun _ => True) (along timesEnv vx) t₀ (.symfn "f" [sq, sn]) := by
  intro u sq sn
  refine ⟨⟨by decide +kernel, noLic, fun ρ _ => noLic_true ρ, by decide +kernel⟩, calculus_env _ _, freshAbove_fresh, .other (cs := [sq, sn]) (.inl ⟨"f", rfl, ?_, ?_, ?_⟩) ?_⟩
  · simp only [List.mem_cons, List.not_mem_nil, or_false, forall_eq_or_imp, forall_eq]
    constructor <;> simp [sq, sn, Plain, Over, Overs, Head.plain, Head.interpreted, Head.isLeaf]
  · simp only [List.mem_cons, List.not_mem_nil, or_false, forall_eq_or_imp, forall_eq]
    exact ⟨.of_forall fun t => ⟨_, eval_sq _ t⟩, .of_forall fun t => ⟨_, eval_sin _ t⟩⟩
  · refine ⟨fun p => ((p 0 * p 1 : ℝ) : ℂ), ![t₀ ^ 2, Real.sin t₀], ?_, ?_, .of_forall fun p => ?_⟩
    · intro i
      fin_cases i
      · exact eval_sq _ _
      · exact eval_sin _ _
    · have h : DifferentiableAt ℝ (fun p : Fin 2 → ℝ => p 0 * p 1) ![t₀ ^ 2, Real.sin t₀] := by fun_prop
      exact Complex.ofRealCLM.differentiableAt.comp _ h
    · show timesFn "f" [(p 0 : ℂ), (p 1 : ℂ)] = _
      simp [timesFn]
  · simp only [List.mem_cons, List.not_mem_nil, or_false, forall_eq_or_imp, forall_eq]
    exact ⟨smooth_sq, smooth_sin⟩

/-- The derivative of the deferred substitution of `sin(x)` for `y` in `y * x` -/
example (t₀ : ℝ) :
    let sn : Expr ℝ := .fn .sin [vx]
    let e : Expr ℝ := .subst (.mul [vx, vy]) vy sn
    (∃ d, LawfulRunOn (fun _ => True) 10 (fun _ K => diff (chainCfg K 3 freshAbove 2 vx .constant) e 1) d) ∧
    Smooth (Declared (fun _ => True) 1 .constant timesEnv (.var "x" .positive) t₀) .constant (fun _ => True) (along timesEnv vx) t₀ e := by
  intro sn e
  have hv : ∀ (ρ : Env ℝ) (s t : ℝ), eval ((along ρ vx t).setVar vy (s : ℂ)) (.mul [vx, vy]) = some ((t : ℂ) * (s : ℂ)) := by
    intro ρ s t
    have e1 : eval ((along ρ vx t).setVar vy (s : ℂ)) vx = some (t : ℂ) := by
      rw [eval_var_node rfl, setVar_other (by decide)]; exact setVar_self _
    have e2 : eval ((along ρ vx t).setVar vy (s : ℂ)) vy = some (s : ℂ) := by
      rw [eval_var_node rfl]; exact setVar_self _
    rw [eval_mul, List.map_cons, List.map_singleton, e1, e2]; simp [prodO_cons]
  have hΦ : DifferentiableAt ℝ (fun p : ℝ × ℝ => p.2 * p.1) (Real.sin t₀, t₀) := by fun_prop
  refine ⟨Same.runs (by decide +kernel) _, ?_⟩
  refine .other (cs := [sn]) (.inr (.inr (.inr ⟨.mul [vx, vy], sn, .var "y" .real, Real.sin t₀, rfl, rfl, rfl, by decide, .of_forall fun t => ⟨_, eval_sin _ t⟩,
    eval_sin _ t₀, ⟨fun p => ((p.2 * p.1 : ℝ) : ℂ), Complex.ofRealCLM.differentiableAt.comp _ hΦ, .of_forall fun p => ?_⟩, trivial, ?_, ?_⟩))) ?_
  · rw [show (Expr.node (.var "y" .real) [] : Expr ℝ) = vy from rfl, show (Expr.node (.var "x" .positive) [] : Expr ℝ) = vx from rfl, hv]
    simp
  · refine .mul ?_
    simp only [List.mem_cons, List.not_mem_nil, or_false, forall_eq_or_imp, forall_eq]
    refine ⟨smooth_vx, .leaf (z := (Real.sin t₀ : ℝ)) rfl rfl ?_⟩
    rw [eval_var_node rfl]
    unfold along
    rw [setVar_other (by decide)]; exact setVar_self _
  · refine .mul ?_
    simp only [List.mem_cons, List.not_mem_nil, or_false, forall_eq_or_imp, forall_eq]
    refine ⟨.leaf (z := t₀) rfl rfl ?_, .leaf (z := (Real.sin t₀ : ℝ)) rfl rfl ?_⟩
    · rw [eval_var_node rfl]
      unfold along
      rw [setVar_other (by decide)]; exact setVar_self _
    · rw [eval_var_node rfl]; exact setVar_self _
  · simp only [List.mem_singleton, forall_eq]
    exact smooth_sin

/-- The derivative of `f(y)` with respect to itself -/
example : diff (chainCfg (ctors codeLic 8) 3 freshAbove 2 (.symfn "f" [vy] : Expr ℝ) .constant) (.symfn "f" [vy]) 1 = .ok (.int 1) := by decide +kernel

end Wf.Sym
