import Verif.Sym.TruthModel
import Verif.Sym.FunctionProps

/-!
# C79: a decision that Python makes about expressions is right for all values

Code that builds expressions may branch on them (`if a < b`), chain comparisons (`0 < a <= b`), combine them with `and`, `or` and `not`, and use the
built-in functions `max` and `min`. If such code does not raise, the branch it takes must be the one that is right whatever the values of the variables.
-/

namespace Wf.Sym.Truth

variable {F : Type} [DecidableEq F] [FnSem F]

/-! ## Specification -/

/-- What a comparison of real numbers means. -/
def PyCmp.Means : PyCmp → ℝ → ℝ → Prop
  | .lt, x, y => x < y
  | .gt, x, y => y < x
  | .le, x, y => x ≤ y
  | .ge, x, y => y ≤ x

/-- Each number compares with the next. -/
def ChainMeans : ℝ → List (PyCmp × ℝ) → Prop
  | _, [] => True
  | x, (op, y) :: rest => op.Means x y ∧ ChainMeans y rest

/-- The expression stands for the real number under the assignment. -/
def Stands (ρ : Env F) (a : Expr F) (x : ℝ) : Prop := Good a ∧ eval ρ a = some (x : ℂ)

/-- The condition means `p` under the assignment: all the expressions in it stand for real numbers, with which `p` is the condition. -/
inductive Test.Means (ρ : Env F) : Test F → Prop → Prop
  | chain {a x rest ys} : Stands ρ a x → List.Forall₂ (fun p q => p.1 = q.1 ∧ Stands ρ p.2 q.2) rest ys → Test.Means ρ (.chain a rest) (ChainMeans x ys)
  | not {c p} : Test.Means ρ c p → Test.Means ρ (.not c) ¬p
  | and {c d p q} : Test.Means ρ c p → Test.Means ρ d q → Test.Means ρ (.and c d) (p ∧ q)
  | or {c d p q} : Test.Means ρ c p → Test.Means ρ d q → Test.Means ρ (.or c d) (p ∨ q)

/-! ## Proofs -/

theorem truth_ok {e : Expr F} {t : Bool} (h : truth e = .ok t) : ∃ as, e = .node (.bconst t) as := by
  obtain ⟨hd, as⟩ := e
  cases hd <;> first | (cases h; exact ⟨as, rfl⟩) | cases h

/-- A decided relation has no children. -/
theorem relCreate_truth {op : RelOp} {a b c : Expr F} {t : Bool} (h : relCreate op a b = .ok c) (ht : truth c = .ok t) : c = .bconst t := by
  obtain ⟨as, rfl⟩ := truth_ok ht
  unfold relCreate at h
  split at h
  · cases h
  split at h
  · cases h
  · cases h; rfl
  · unfold relNode at h
    repeat' (first | cases h | split at h)

theorem asks_const {op : PyCmp} {a b : Expr F} {t : Bool} (h : asks op a b = .ok t) : compare op a b = .ok (.bconst t) := by
  unfold asks at h
  split at h
  · cases h
  · next c hc =>
    rw [hc]
    cases op <;> rw [relCreate_truth hc h]

/-- **C79** for one comparison. If `bool(a op b)` returns, it is the truth of the comparison under every assignment that gives the operands real
values. -/
theorem C79_comparison (op : PyCmp) (a b : Expr F) (t : Bool) (h : asks op a b = .ok t) (ρ : Env F) (x y : ℝ) (ha : Stands ρ a x) (hb : Stands ρ b y) :
    t = true ↔ op.Means x y := by
  have h1 := asks_const h
  cases op
  · exact C22_less_than a b t ha.1 hb.1 h1 ρ x y ha.2 hb.2
  · exact C22_less_than b a t hb.1 ha.1 h1 ρ y x hb.2 ha.2
  · exact C22_less_equal a b t ha.1 hb.1 h1 ρ x y ha.2 hb.2
  · exact C22_less_equal b a t hb.1 ha.1 h1 ρ y x hb.2 ha.2

theorem chain_means {ρ : Env F} : ∀ {a : Expr F} {x : ℝ} {rest : List (PyCmp × Expr F)} {ys : List (PyCmp × ℝ)} {t : Bool}, Stands ρ a x →
    List.Forall₂ (fun p q => p.1 = q.1 ∧ Stands ρ p.2 q.2) rest ys → chain a rest = .ok t → (t = true ↔ ChainMeans x ys)
  | a, x, [], _, t, _, hr, h => by
    cases hr
    cases h
    simp [ChainMeans]
  | a, x, (op, b) :: rest, _, t, ha, hr, h => by
    cases hr with
    | @cons _ q _ qs hp hr =>
      obtain ⟨rfl, hb⟩ := hp
      unfold chain at h
      split at h
      · cases h
      · next hc =>
        cases h
        have := C79_comparison _ a b _ hc ρ x q.2 ha hb
        simp only [ChainMeans]
        tauto
      · next hc =>
        have h1 := C79_comparison _ a b _ hc ρ x q.2 ha hb
        rw [chain_means hb hr h]
        simp only [ChainMeans]
        tauto

/-- **C79** for conditions. If a condition made of comparisons, chains of comparisons, `and`, `or` and `not` returns, it is the truth of the condition
under every assignment that gives the expressions in it real values. -/
theorem C79_condition (c : Test F) (t : Bool) (h : c.run = .ok t) (ρ : Env F) (p : Prop) (hp : c.Means ρ p) : t = true ↔ p := by
  induction hp generalizing t with
  | chain ha hr => exact chain_means ha hr h
  | @not c p _ ih =>
    unfold Test.run at h
    split at h
    · cases h
    · next s hs =>
      cases h
      rw [← ih s hs]
      cases s <;> simp
  | @and c d p q _ _ ih1 ih2 =>
    unfold Test.run at h
    split at h
    · cases h
    · next hs => cases h; have := ih1 _ hs; simp_all
    · next hs => have := ih1 _ hs; have := ih2 _ h; simp_all
  | @or c d p q _ _ ih1 ih2 =>
    unfold Test.run at h
    split at h
    · cases h
    · next hs => cases h; have := ih1 _ hs; simp_all
    · next hs => have := ih1 _ hs; have := ih2 _ h; simp_all

/-- **C79** for branches. `f if a op b else g` returns what `sym.where(a op b, f, g)` returns, or raises. -/
theorem C79_branch (op : PyCmp) (a b f g r : Expr F) (h : pyIf op a b f g = .ok r) : symWhere op a b f g = .ok r := by
  unfold pyIf at h
  split at h
  · cases h
  · next t ht =>
    cases h
    unfold symWhere
    rw [asks_const ht]
    have h1 : ∀ s u : Bool, identical (.bconst s : Expr F) (.bconst u) = decide (s = u) := fun s u => by
      by_cases hsu : s = u
      · rw [hsu, decide_eq_true rfl]
        exact (identical_iff _ _).2 rfl
      · rw [decide_eq_false hsu, Bool.eq_false_iff]
        intro hi
        have := (identical_iff _ _).1 hi
        cases this
        exact hsu rfl
    cases t <;> simp [condCreate, h1]

/-- **C79** for `max` and `min`. If Python's `max` or `min` of a non-empty list of expressions returns, the result is one of them, and its value is the
largest or smallest under every assignment that gives all of them real values. -/
theorem C79_best (op : PyCmp) (hop : op = .gt ∨ op = .lt) : ∀ (xs : List (Expr F)) (a r : Expr F), pyBest op a xs = .ok r →
    r ∈ a :: xs ∧ ∀ (ρ : Env F) (v : Expr F → ℝ), (∀ y ∈ a :: xs, Stands ρ y (v y)) → ∀ y ∈ a :: xs, ¬op.Means (v y) (v r)
  | [], a, r, h => by
    cases h
    refine ⟨by simp, fun ρ v _ y hy => ?_⟩
    rw [List.mem_singleton.1 hy]
    rcases hop with rfl | rfl <;> exact lt_irrefl _
  | x :: xs, a, r, h => by
    unfold pyBest at h
    split at h
    · cases h
    · next t ht =>
      obtain ⟨h1, h2⟩ := C79_best op hop xs _ r h
      refine ⟨?_, fun ρ v hv => ?_⟩
      · rcases List.mem_cons.1 h1 with rfl | h1
        · cases t <;> simp
        · simp [h1]
      · have hc := C79_comparison op x a t ht ρ _ _ (hv x (by simp)) (hv a (by simp))
        have hs : ∀ y ∈ (if t then x else a) :: xs, Stands ρ y (v y) := by
          intro y hy
          refine hv y ?_
          rcases List.mem_cons.1 hy with rfl | hy
          · cases t <;> simp
          · simp [hy]
        have h3 := h2 ρ v hs
        have hbest := h3 _ (List.mem_cons_self ..)
        intro y hy
        rcases List.mem_cons.1 hy with rfl | hy
        · cases t
          · exact hbest
          · have hx := hc.1 rfl
            simp only [if_true] at hbest
            rcases hop with rfl | rfl <;> simp only [PyCmp.Means] at * <;> linarith
        · rcases List.mem_cons.1 hy with rfl | hy
          · cases t
            · have hx : ¬op.Means (v y) (v a) := fun hm => by simpa using hc.2 hm
              simp only [Bool.false_eq_true, if_false] at hbest
              rcases hop with rfl | rfl <;> simp only [PyCmp.Means] at * <;> linarith
            · simpa using hbest
          · exact h3 y (List.mem_cons_of_mem _ hy)

/-- Numbers, `π` and `E`. -/
def Constant (a : Expr F) : Prop := (∃ n, a = .int n) ∨ (∃ r, a = .rat r) ∨ (∃ f, a = .flt f) ∨ ∃ c, a = .const c

/-- **C79** for expressions that are not constants. A comparison with one raises a type error: no branch is taken by accident. -/
theorem C79_open (op : PyCmp) (a b : Expr F) (h : ¬Constant a ∨ ¬Constant b) : asks op a b = .error .type := by
  have key : ∀ (o : RelOp) (a b : Expr F), o ≠ .eq → ¬Constant a ∨ ¬Constant b →
      (relCreate o a b = .error .type ∨ ∃ c, relCreate o a b = .ok c ∧ truth c = .error .type) := by
    intro o a b ho h
    unfold relCreate
    split
    · exact .inl rfl
    · have n1 : ∀ a b : Expr F, ¬Constant a ∨ ¬Constant b → numLt a b = none := by
        intro a b h
        unfold numLt
        split
        all_goals first
          | rfl
          | (exfalso; rcases h with h | h <;> exact h (by simp [Constant]))
      refine .inr ⟨.rel o a b, ?_, ?_⟩
      · have e1 := n1 a b h
        have e2 := n1 b a h.symm
        have e : relSimplify o a b = .ok none := by unfold relSimplify; rw [e1, e2]
        simp only [e]
        cases o <;> first | rfl | exact absurd rfl ho
      · rfl
  have key2 : ∀ (o : RelOp) (a b : Expr F), o ≠ .eq → ¬Constant a ∨ ¬Constant b → compare op a b = relCreate o a b → asks op a b = .error .type := by
    intro o a b ho h he
    unfold asks
    rw [he]
    rcases key o a b ho h with hk | ⟨c, hk, ht⟩
    · rw [hk]
    · rw [hk]; exact ht
  have key3 : ∀ (o : RelOp) (a b : Expr F), o ≠ .eq → ¬Constant a ∨ ¬Constant b → compare op a b = relCreate o b a → asks op a b = .error .type := by
    intro o a b ho h he
    unfold asks
    rw [he]
    rcases key o b a ho h.symm with hk | ⟨c, hk, ht⟩
    · rw [hk]
    · rw [hk]; exact ht
  cases op
  · exact key2 .lt a b (by decide) h rfl
  · exact key3 .lt a b (by decide) h rfl
  · exact key2 .le a b (by decide) h rfl
  · exact key3 .le a b (by decide) h rfl

/-- **C79** for scalars in place of conditions: an expression that is not `sym.true` or `sym.false` has no truth, and these two have theirs. -/
theorem C79_truth (e : Expr F) : truth e = .ok true ∧ e.head = .bconst true ∨ truth e = .ok false ∧ e.head = .bconst false ∨
    truth e = .error .type ∧ ∀ t, e.head ≠ .bconst t := by
  obtain ⟨hd, as⟩ := e
  cases hd
  case bconst t => cases t <;> simp [truth, Expr.head]
  all_goals exact .inr (.inr ⟨rfl, fun t h => by cases h⟩)

/-! ## Non-vacuity -/

/-- `1/3 < 1/2 <= 1/2 and not (3 > π or π <= E)` is true. -/
example : (Test.and (.chain (.rat ⟨1, 3⟩ : Expr ℝ) [(.lt, half), (.le, .rat ⟨1, 2⟩)])
    (.not (.or (.chain (.int 3) [(.gt, .const .pi)]) (.chain (.const .pi) [(.le, .const .euler)])))).run = .ok true := by decide +kernel

/-- `max([3, π, E])` is `π` and `min` is `E`; with a variable they raise. -/
example : pyBest .gt (.int 3 : Expr ℝ) [.const .pi, .const .euler] = .ok (.const .pi) ∧
    pyBest .lt (.int 3 : Expr ℝ) [.const .pi, .const .euler] = .ok (.const .euler) ∧
    pyBest .lt (.int 3 : Expr ℝ) [vx, .const .euler] = .error .type := by decide +kernel

/-- Python's `2 > x` raises although `x` may be replaced by a number later. -/
example : asks .gt (.int 2 : Expr ℝ) vx = .error .type :=
  C79_open .gt _ _ (.inr fun h => by rcases h with ⟨_, h⟩ | ⟨_, h⟩ | ⟨_, h⟩ | ⟨_, h⟩ <;> cases h)

/-- The hypotheses of `C79_condition` hold for a condition that is decided. -/
example (ρ : Env ℝ) : (Test.chain (.int 2 : Expr ℝ) [(.lt, .int 3)]).Means ρ (ChainMeans 2 [(.lt, 3)]) :=
  .chain ⟨good_int.2 (inI64_small (by decide) (by decide)), by simp [eval_int]⟩
    (.cons ⟨rfl, good_int.2 (inI64_small (by decide) (by decide)), by simp [eval_int]⟩ .nil)

end Wf.Sym.Truth
