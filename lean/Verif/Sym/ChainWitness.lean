import Verif.Sym.ChainLemmas

/-!
# The meaning of deferred derivatives and substitutions exists

For all values of the variables and all meanings of the declared functions there is an assignment in which deferred derivatives and substitutions
mean what they say, and there is a choice of new variables.
-/

namespace Wf.Sym
open Complex Filter Topology

variable {F : Type} [DecidableEq F] [FnSem F]

/-- The values of the variables with the value of `x` replaced. -/
noncomputable def setLeaf (leaf : Head F → Option ℂ) (x : Head F) (z : ℂ) : Head F → Option ℂ :=
  fun h => if identical (.node h []) (.node x [] : Expr F) then some z else leaf h

open Classical in
/-- The derivative of order `n` of a function of the values of the variables. -/
noncomputable def derivLeaf (x : Head F) (f : (Head F → Option ℂ) → Option ℂ) : Nat → (Head F → Option ℂ) → Option ℂ
  | 0, leaf => f leaf
  | n + 1, leaf =>
    if h : ∃ z, ∃ (t₀ : ℝ) (g : ℝ → ℂ), leaf x = some (t₀ : ℂ) ∧ (∀ᶠ t : ℝ in 𝓝 t₀, derivLeaf x f n (setLeaf leaf x (t : ℂ)) = some (g t)) ∧ HasDerivAt g z t₀
    then some h.choose else none

/-- The value of a node as a function of the values of the variables. -/
noncomputable def headC (f : String → List ℂ → Option ℂ) (h : Head F) (as : List (Expr F)) (kids : List ((Head F → Option ℂ) → Option ℂ))
    (leaf : Head F → Option ℂ) : Option ℂ :=
  match h, as, kids with
  | .subst, [_, .node x [], _], [i, _, r] => (r leaf).bind fun z => i (setLeaf leaf x z)
  | .deriv n, [_, .node x []], [g, _] => derivLeaf x g n leaf
  | .subst, _, _ => none
  | .deriv _, _, _ => none
  | h, as, kids => headVal ⟨leaf, f, fun _ _ => none⟩ (.node h as) h (kids.map fun g => g leaf)

mutual
/-- The value of an expression as a function of the values of the variables. -/
noncomputable def evalC (f : String → List ℂ → Option ℂ) : Expr F → (Head F → Option ℂ) → Option ℂ
  | .node h as => headC f h as (evalsC f as)
@[inherit_doc evalC] noncomputable def evalsC (f : String → List ℂ → Option ℂ) : List (Expr F) → List ((Head F → Option ℂ) → Option ℂ)
  | [] => []
  | a :: as => evalC f a :: evalsC f as
end

/-- The assignment. -/
noncomputable def calculusEnv (leaf : Head F → Option ℂ) (f : String → List ℂ → Option ℂ) : Env F := ⟨leaf, f, fun l e => evalC f e l⟩

theorem headVal_opaq {leaf : Head F → Option ℂ} {f : String → List ℂ → Option ℂ} {o o' : (Head F → Option ℂ) → Expr F → Option ℂ} {h : Head F}
    (h1 : ∀ n, h ≠ .deriv n) (h2 : h ≠ .subst) (h3 : ∀ i, h ≠ .elem i) (e : Expr F) (vs : List (Option ℂ)) :
    headVal ⟨leaf, f, o⟩ e h vs = headVal ⟨leaf, f, o'⟩ e h vs := by
  rcases vs with _ | ⟨a, _ | ⟨b, _ | ⟨c, _ | ⟨d, vs⟩⟩⟩⟩ <;> cases h <;>
    first | rfl | exact absurd rfl (h1 _) | exact absurd rfl h2 | exact absurd rfl (h3 _)

theorem headC_other {f : String → List ℂ → Option ℂ} {h : Head F} (h1 : ∀ n, h ≠ .deriv n) (h2 : h ≠ .subst) (as : List (Expr F))
    (kids : List ((Head F → Option ℂ) → Option ℂ)) (leaf : Head F → Option ℂ) :
    headC f h as kids leaf = headVal ⟨leaf, f, fun _ _ => none⟩ (.node h as) h (kids.map fun g => g leaf) := by
  cases h <;> first | rfl | exact absurd rfl (h1 _) | exact absurd rfl h2

mutual
theorem eval_calculus (leaf : Head F → Option ℂ) (f : String → List ℂ → Option ℂ) : ∀ e : Expr F, eval (calculusEnv leaf f) e = evalC f e leaf
  | .node h as => by
    by_cases h1 : ∃ n, h = .deriv n
    · obtain ⟨n, rfl⟩ := h1; rw [eval]; rfl
    by_cases h2 : h = .subst
    · subst h2; rw [eval]; rfl
    by_cases h3 : ∃ i, h = .elem i
    · obtain ⟨n, rfl⟩ := h3; rw [eval]; rfl
    · push Not at h1 h3
      rw [eval, evals_calculus leaf f as, evalC, headC_other h1 h2]
      exact headVal_opaq h1 h2 h3 _ _
theorem evals_calculus (leaf : Head F → Option ℂ) (f : String → List ℂ → Option ℂ) :
    ∀ as : List (Expr F), evals (calculusEnv leaf f) as = (evalsC f as).map fun g => g leaf
  | [] => rfl
  | a :: as => by rw [evals, eval_calculus leaf f a, evals_calculus leaf f as]; rfl
end

theorem derivLeaf_succ {x : Head F} {f : (Head F → Option ℂ) → Option ℂ} {n : Nat} {leaf : Head F → Option ℂ} {z : ℂ} :
    derivLeaf x f (n + 1) leaf = some z ↔
      ∃ (t₀ : ℝ) (g : ℝ → ℂ), leaf x = some (t₀ : ℂ) ∧ (∀ᶠ t : ℝ in 𝓝 t₀, derivLeaf x f n (setLeaf leaf x (t : ℂ)) = some (g t)) ∧ HasDerivAt g z t₀ := by
  rw [derivLeaf]
  constructor
  · intro h
    split_ifs at h with hex
    cases h
    exact hex.choose_spec
  · intro h
    have hex : ∃ z, ∃ (t₀ : ℝ) (g : ℝ → ℂ), leaf x = some (t₀ : ℂ) ∧ (∀ᶠ t : ℝ in 𝓝 t₀, derivLeaf x f n (setLeaf leaf x (t : ℂ)) = some (g t)) ∧ HasDerivAt g z t₀ :=
      ⟨z, h⟩
    rw [dif_pos hex]
    obtain ⟨t₁, g₁, a1, a2, a3⟩ := hex.choose_spec
    obtain ⟨t₀, g, b1, b2, b3⟩ := h
    rw [a1] at b1
    have ht : t₁ = t₀ := Complex.ofReal_injective (Option.some.inj b1)
    subst ht
    congr 1
    refine a3.unique (b3.congr_of_eventuallyEq ?_)
    filter_upwards [a2, b2] with t h1 h2
    rw [h1] at h2
    exact Option.some.inj h2

theorem calculus_env (leaf : Head F → Option ℂ) (f : String → List ℂ → Option ℂ) : Calculus (calculusEnv leaf f) where
  subst l e r x hx := by
    show evalC f (.node .subst [e, .node x [], r]) l = (eval (calculusEnv l f) r).bind fun z => eval (calculusEnv (setLeaf l x z) f) e
    simp only [eval_calculus]
    rw [evalC, evalsC, evalsC, evalsC, evalsC]; rfl
  deriv l e x z hx := by
    have h1 : (calculusEnv leaf f).opaq l (.deriv e (.node x []) 1) = derivLeaf x (evalC f e) 1 l := by
      show evalC f (.node (.deriv 1) [e, .node x []]) l = _
      rw [evalC, evalsC, evalsC, evalsC]; rfl
    rw [h1, derivLeaf_succ]
    have h2 : ∀ t : ℝ, eval (along ((calculusEnv leaf f).withLeaf l) (.node x []) t) e = derivLeaf x (evalC f e) 0 (setLeaf l x (t : ℂ)) := fun t =>
      eval_calculus (setLeaf l x (t : ℂ)) f e
    simp only [h2]
  higher l e x n z hx := by
    have h1 : (calculusEnv leaf f).opaq l (.deriv e (.node x []) (n + 2)) = derivLeaf x (evalC f e) (n + 2) l := by
      show evalC f (.node (.deriv (n + 2)) [e, .node x []]) l = _
      rw [evalC, evalsC, evalsC, evalsC]; rfl
    rw [h1, derivLeaf_succ]
    have h2 : ∀ t : ℝ, eval (along ((calculusEnv leaf f).withLeaf l) (.node x []) t) (.deriv e (.node x []) (n + 1)) =
        derivLeaf x (evalC f e) (n + 1) (setLeaf l x (t : ℂ)) := fun t => by
      rw [show eval (along ((calculusEnv leaf f).withLeaf l) (.node x []) t) (.deriv e (.node x []) (n + 1)) =
        evalC f (.node (.deriv (n + 1)) [e, .node x []]) (setLeaf l x (t : ℂ)) from eval_calculus (setLeaf l x (t : ℂ)) f _]
      rw [evalC, evalsC, evalsC, evalsC]; rfl
    simp only [h2]

/-! ## New variables -/

/-- A number above the number of a unique variable. -/
def Head.uniqueBound : Head F → Nat
  | .uniq i _ => i + 1
  | _ => 0

mutual
/-- A number above the numbers of all unique variables in the expression. -/
def nextUnique : Expr F → Nat
  | .node h as => max h.uniqueBound (nextUniques as)
@[inherit_doc nextUnique] def nextUniques : List (Expr F) → Nat
  | [] => 0
  | a :: as => max (nextUnique a) (nextUniques as)
end

mutual
theorem avoids_unique (n : Nat) (s : NSet) : ∀ e : Expr F, nextUnique e ≤ n → Avoids (.node (.uniq n s) []) e
  | .node h as => by
    intro hn
    rw [nextUnique] at hn
    refine over_node.2 ⟨fun he => ?_, avoids_uniques n s as (le_trans (le_max_right _ _) hn)⟩
    cases he
    have : n + 1 ≤ n := le_trans (le_max_left _ _) hn
    omega
theorem avoids_uniques (n : Nat) (s : NSet) : ∀ as : List (Expr F), nextUniques as ≤ n → ∀ a ∈ as, Avoids (.node (.uniq n s) []) a
  | [], _ => fun a ha => by cases ha
  | b :: bs, hn => fun a ha => by
    rw [nextUniques] at hn
    rcases List.mem_cons.1 ha with he | ha
    · rw [he]; exact avoids_unique n s b (le_trans (le_max_left _ _) hn)
    · exact avoids_uniques n s bs (le_trans (le_max_right _ _) hn) a ha
end

/-- The next number. -/
def freshAbove (e : Expr F) (_ : Nat) : Nat := nextUnique e

theorem freshAbove_fresh : IsFresh (freshAbove (F := F)) := fun e _ s => avoids_unique _ s e (le_refl _)

end Wf.Sym
