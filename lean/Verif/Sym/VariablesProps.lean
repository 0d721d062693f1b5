import Verif.Sym.VariablesLemmas
import Verif.Sym.RealFloat
import Verif.Sym.ExampleTools

/-!
# C65: the variables of an expression
-/

namespace Wf.Sym

variable {F : Type} [DecidableEq F] [FnSem F]

/-- **C65**. For every test, the search returns the scalar parts that pass it, except the expression itself. -/
theorem C65_search (p : Expr F → Bool) (e v : Expr F) :
    v ∈ getByPredicate p e ↔ (v.head.isScalar = true ∧ p v = true) ∧ Occurs v e ∧ v ≠ e := by
  rw [getByPredicate_eq, firsts_eq, mem_addAll, ← occurs_proper, List.mem_filter, mem_partsL, Bool.and_eq_true]
  constructor
  · rintro (h | h)
    · cases h
    · exact ⟨h.2, h.1⟩
  · exact fun h => .inr ⟨h.2, h.1⟩

/-- **C65**. The variables of an expression that is not itself a variable are those that occur in it. -/
theorem C65_variables_partial (e v : Expr F) (he : e.head.isVar = false) : v ∈ getVariables e ↔ v.head.isVar = true ∧ Occurs v e := by
  unfold getVariables
  rw [C65_search]
  constructor
  · exact fun h => ⟨h.1.2, h.2.1⟩
  · intro h
    refine ⟨⟨?_, h.1⟩, h.2, ?_⟩
    · obtain ⟨g, as⟩ := v
      have h1 : g.isVar = true := h.1
      show g.isScalar = true
      cases g <;> first | rfl | exact absurd h1 Bool.false_ne_true
    · rintro rfl
      rw [he] at h
      exact absurd h.1 (by decide)

/-- **C65**. No variable is returned twice. -/
theorem C65_once (e : Expr F) : (getVariables e).Nodup := by
  unfold getVariables
  rw [getByPredicate_eq, firsts_eq]
  exact nodup_addAll List.nodup_nil

/-- **C65**. The variables are returned in the order in which they first occur, from left to right. -/
theorem C65_order (e : Expr F) : getVariables e = firsts ((partsL e.args).filter fun x => x.head.isVar) := by
  unfold getVariables
  rw [getByPredicate_eq]
  congr 2
  funext x
  obtain ⟨g, as⟩ := x
  show (g.isScalar && g.isVar) = g.isVar
  cases g <;> rfl

/-- **C65**. The value of an expression depends on nothing but the values of the variables that are returned: the value is the same under any two
assignments that agree on them (and on the functions that the user declares). -/
theorem C65_value (ρ ρ' : Env F) (e : Expr F) (he : e.head.isVar = false) (hp : Plain e) (hs : ρ.symfn = ρ'.symfn)
    (h : ∀ v ∈ getVariables e, eval ρ v = eval ρ' v) : eval ρ e = eval ρ' e :=
  eval_agree hs e hp fun v h1 h2 => h v ((C65_variables_partial e v he).2 ⟨h1, h2⟩)

/-- **C65**. The expression itself is not tested: a variable has no variables. -/
theorem C65_variable_refuted (h : Head F) (hv : h.isVar = true) :
    getVariables (.node h [] : Expr F) = [] ∧ (Expr.node h [] : Expr F).head.isVar = true ∧ Occurs (Expr.node h [] : Expr F) (.node h []) :=
  ⟨rfl, hv, .here⟩

/-! ## Non-vacuity -/

/-- `x * (y + x) * sin(z)` -/
abbrev varsXYZ : Expr ℝ := .mul [vr "x", .add [vr "y", vr "x"], .fn .sin [vr "z"]]

example : getVariables varsXYZ = [vr "x", vr "y", vr "z"] ∧ varsXYZ.head.isVar = false ∧ Plain varsXYZ :=
  ⟨by decide +kernel, rfl, by simp [plain_node, Head.plain, Head.interpreted, Head.isLeaf]⟩

example : getByPredicate (fun x => x.head == .add) varsXYZ = [.add [vr "y", vr "x"]] := by decide +kernel

/-- Two assignments that differ at a variable which does not occur. -/
example (ρ : Env ℝ) : eval ρ varsXYZ = eval { ρ with leaf := fun h => if h = .var "w" .real then some 7 else ρ.leaf h } varsXYZ := by
  refine C65_value _ _ _ rfl (by simp [plain_node, Head.plain, Head.interpreted, Head.isLeaf]) rfl fun v hv => ?_
  have h : getVariables varsXYZ = [vr "x", vr "y", vr "z"] := by decide +kernel
  rw [h] at hv
  simp only [List.mem_cons, List.not_mem_nil, or_false] at hv
  rcases hv with rfl | rfl | rfl <;> rfl

end Wf.Sym
