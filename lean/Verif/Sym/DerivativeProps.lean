import Verif.Sym.DerivativeCorrect
import Verif.Sym.ValueProps
import Mathlib.Analysis.Calculus.IteratedDeriv.Defs

/-! # Property C15: the symbolic derivative is the derivative -/

namespace Wf.Sym
open Complex Filter Topology

variable {F : Type} [DecidableEq F] [FnSem F]

theorem diff_one {D : DiffCfg F} {e d : Expr F} (h : diff D e 1 = .ok d) : diffE D e = .ok d := by
  unfold diff at h
  rw [if_neg (by decide)] at h
  split_ifs at h
  unfold diffTimes at h
  obtain ⟨d', h1, h2⟩ := andThen_ok h
  cases h2; exact h1

/-- **C15**. Let `e` be smooth at `t₀` as a function of the variable `v`, the other variables having the values given by `ρ`. Then the value of
`e` is a differentiable function of `v` at `t₀`, and the value of `diff(e, v)` is its derivative. -/
theorem C15_derivative (S : Env F → Prop) (ρ : Env F) (t₀ : ℝ) (n m : Nat) (v : Head F) (beh : NonDiff) (other : Expr F → List (Expr F) → Res (Expr F))
    (e d : Expr F) (hv : v.isVar = true) (hO : GoodOther other) (hg : Good e) (h₀ : S (along ρ (.node v []) t₀))
    (hs : Smooth NoOther beh S (along ρ (.node v [])) t₀ e) (h : LawfulRunOn S n (fun _ K => diff ⟨K, m, .node v [], beh, other⟩ e 1) d) :
    Good d ∧ ∃ (g : ℝ → ℂ) (g' : ℂ), (∀ᶠ t in 𝓝 t₀, eval (along ρ (.node v []) t) e = some (g t)) ∧ HasDerivAt g g' t₀ ∧
      eval (along ρ (.node v []) t₀) d = some g' := by
  obtain ⟨lic, hl, hr⟩ := h.lawful
  obtain ⟨g, g', h1, h2⟩ := smooth_ok (D := ⟨ctors lic n, m, .node v [], beh, other⟩) rfl hl hv rfl hO h₀ (fun _ _ h => h.elim) (fun _ _ h => h.elim) hs hg
  have h3 := h2 d (diff_one hr)
  exact ⟨h3.1, g, g', h1.1, h1.2, h3.2⟩

/-- **C15** (higher order). Differentiating repeatedly gives the higher derivatives, where all the derivatives taken on the way are smooth. -/
theorem C15_repeated (S : Env F → Prop) (ρ : Env F) (U : Set ℝ) (hU : IsOpen U) (n m : Nat) (v : Head F) (beh : NonDiff)
    (other : Expr F → List (Expr F) → Res (Expr F)) (reps : Nat) (es : Nat → Expr F) (hv : v.isVar = true) (hO : GoodOther other) (hg : Good (es 0))
    (hS : ∀ t ∈ U, S (along ρ (.node v []) t)) (hs : ∀ i < reps, ∀ t ∈ U, Smooth NoOther beh S (along ρ (.node v [])) t (es i))
    (h : ∀ i < reps, LawfulRunOn S n (fun _ K => diff ⟨K, m, .node v [], beh, other⟩ (es i) 1) (es (i + 1)))
    (g : ℝ → ℂ) (hval : ∀ t ∈ U, eval (along ρ (.node v []) t) (es 0) = some (g t)) :
    diff ⟨ctors codeLic n, m, .node v [], beh, other⟩ (es 0) reps = .ok (es reps) ∧
      ∀ t ∈ U, eval (along ρ (.node v []) t) (es reps) = some (iteratedDeriv reps g t) := by
  constructor
  · have hok : diffArgOk (.node v [] : Expr F) = true := by cases v <;> first | rfl | cases hv
    unfold diff
    rw [if_neg (by omega)]
    dsimp only
    rw [if_pos hok, Int.toNat_natCast]
    clear hs hval hg
    induction reps generalizing es with
    | zero => rfl
    | succ k ih =>
      have h1 := diff_one (h 0 (by omega)).code
      unfold diffTimes
      rw [h1]
      exact ih (fun i => es (i + 1)) (fun i hi => h (i + 1) (by omega))
  · induction reps generalizing es g with
    | zero => simpa using hval
    | succ k ih =>
      rw [iteratedDeriv_succ']
      have h1 : ∀ t ∈ U, Good (es 1) ∧ eval (along ρ (.node v []) t) (es 1) = some (deriv g t) := by
        intro t ht
        obtain ⟨hg1, g1, g', e1, e2, e3⟩ := C15_derivative S ρ t n m v beh other (es 0) (es 1) hv hO hg (hS t ht) (hs 0 (by omega) t ht) (h 0 (by omega))
        refine ⟨hg1, ?_⟩
        have : g =ᶠ[𝓝 t] g1 := by
          filter_upwards [hU.mem_nhds ht, e1] with s hs1 hs2
          rw [hval s hs1] at hs2
          exact Option.some.inj hs2
        rw [e3, (e2.congr_of_eventuallyEq this).deriv]
      rcases U.eq_empty_or_nonempty with rfl | ⟨t, ht⟩
      · simp
      · exact ih (fun i => es (i + 1)) (h1 t ht).1 (fun i hi => hs (i + 1) (by omega)) (fun i hi => h (i + 1) (by omega)) (deriv g)
          (fun s hs => (h1 s hs).2)

/-- **C15** (arguments). A negative order is refused, and so is differentiating with respect to anything but a variable, an invocation of a symbolic
function (or its derivative) or an element of a compound expression; order zero gives the expression itself. -/
theorem C15_arguments (D : DiffCfg F) (e : Expr F) :
    (∀ n : Int, n < 0 → diff D e n = .error .invalidArgument) ∧
    (diffArgOk D.arg = true → diff D e 0 = .ok e) ∧ (∀ n : Int, 0 ≤ n → diffArgOk D.arg = false → diff D e n = .error .type) := by
  refine ⟨fun n hn => ?_, fun h => ?_, fun n hn h => ?_⟩
  · unfold diff; rw [if_pos hn]
  · unfold diff; rw [if_neg (by decide), if_pos h]; rfl
  · unfold diff; rw [if_neg (by omega), if_neg (by simp [h])]

/-! ## Jacobians -/

theorem jacobianRows_ok {D : DiffCfg F} {cols col : Nat} (hc : 0 < cols) : ∀ {fs : List (Expr F)} {row : Nat} {buf buf' : List (Expr F)},
    jacobianRows D cols col row fs buf = .ok buf' → buf'.length = buf.length ∧
      (∀ k, (∀ i < fs.length, k ≠ (row + i) * cols + col) → buf'[k]? = buf[k]?) ∧
      ∀ i f, fs[i]? = some f → (row + i) * cols + col < buf.length → ∃ d, diffE D f = .ok d ∧ buf'[(row + i) * cols + col]? = some d := by
  intro fs
  induction fs with
  | nil => intro row buf buf' h; unfold jacobianRows at h; cases h; simp
  | cons f fs ih =>
    intro row buf buf' h
    unfold jacobianRows at h
    obtain ⟨d, hd, h⟩ := andThen_ok h
    obtain ⟨h1, h2, h3⟩ := ih h
    rw [List.length_set] at h1 h3
    refine ⟨h1, fun k hk => ?_, fun i g hi hlt => ?_⟩
    · rw [h2 k (fun i hi e => hk (i + 1) (by simpa using hi) (by rw [e]; ring))]
      rw [List.getElem?_set_ne]
      have := hk 0 (by simp)
      simpa using this.symm
    · cases i with
      | zero =>
        rw [List.getElem?_cons_zero, Option.some.injEq] at hi
        subst hi
        refine ⟨d, hd, ?_⟩
        rw [h2, Nat.add_zero, List.getElem?_set_self (by simpa using hlt)]
        intro j _ e
        have : row * cols = (row + 1 + j) * cols := by simpa using e
        have := Nat.eq_of_mul_eq_mul_right hc this
        omega
      | succ i =>
        rw [List.getElem?_cons_succ] at hi
        have e : row + (i + 1) = row + 1 + i := by ring
        rw [e] at hlt ⊢
        exact h3 i g hi hlt

theorem jacobianCols_ok {cfg : Expr F → DiffCfg F} {cols : Nat} {fs : List (Expr F)} : ∀ {vs : List (Expr F)} {col : Nat} {buf buf' : List (Expr F)},
    col + vs.length = cols → buf.length = fs.length * cols → jacobianCols cfg cols fs col vs buf = .ok buf' → buf'.length = buf.length ∧
      (∀ k, k % cols < col → buf'[k]? = buf[k]?) ∧
      ∀ i j f v, fs[i]? = some f → vs[j]? = some v → diffArgOk v = true ∧ ∃ d, diffE (cfg v) f = .ok d ∧ buf'[i * cols + (col + j)]? = some d := by
  intro vs
  induction vs with
  | nil => intro col buf buf' _ _ h; unfold jacobianCols at h; cases h; simp
  | cons v vs ih =>
    intro col buf buf' hcol hlen h
    rw [List.length_cons] at hcol
    unfold jacobianCols at h
    split_ifs at h with hv
    obtain ⟨buf1, hr, h⟩ := andThen_ok h
    obtain ⟨r1, r2, r3⟩ := jacobianRows_ok (by omega) hr
    obtain ⟨h1, h2, h3⟩ := ih (by omega) (by rw [r1, hlen]) h
    have hmod : ∀ i c, c < cols → (i * cols + c) % cols = c := fun i c hc => by
      rw [Nat.mul_comm, Nat.mul_add_mod, Nat.mod_eq_of_lt hc]
    refine ⟨by rw [h1, r1], fun k hk => ?_, fun i j f u hf hu => ?_⟩
    · rw [h2 k (by omega), r2]
      rintro i - rfl
      rw [hmod _ _ (by omega)] at hk
      omega
    · cases j with
      | zero =>
        rw [List.getElem?_cons_zero, Option.some.injEq] at hu
        subst hu
        have hi : i < fs.length := by
          by_contra hc
          rw [List.getElem?_eq_none (by omega)] at hf
          cases hf
        have hlt : i * cols + col < buf.length := by
          rw [hlen]
          have := Nat.mul_le_mul_right cols (show i + 1 ≤ fs.length by omega)
          rw [Nat.add_mul] at this
          omega
        obtain ⟨d, hd, e⟩ := r3 i f hf (by simpa using hlt)
        refine ⟨hv, d, hd, ?_⟩
        rw [Nat.add_zero, h2 _ (by rw [hmod _ _ (by omega)]; omega)]
        simpa using e
      | succ j =>
        rw [List.getElem?_cons_succ] at hu
        obtain ⟨a, d, hd, e⟩ := h3 i j f u hf hu
        refine ⟨a, d, hd, ?_⟩
        rw [← e]; congr 1; ring

/-- **C15** (Jacobian). The Jacobian has one row for each function and one column for each variable, and in row-major order the element `(i, j)` is
the derivative of the function `i` with respect to the variable `j`. Without functions or without variables there is no Jacobian. -/
theorem C15_jacobian (cfg : Expr F → DiffCfg F) (hcfg : ∀ v, (cfg v).arg = v) (fs vs : List (Expr F)) :
    (fs = [] ∨ vs = [] → jacobian cfg fs vs = .error .dimension) ∧
    ∀ rows cols data, jacobian cfg fs vs = .ok (rows, cols, data) → rows = fs.length ∧ cols = vs.length ∧ data.length = rows * cols ∧
      ∀ i j f v, fs[i]? = some f → vs[j]? = some v → ∃ d, diff (cfg v) f 1 = .ok d ∧ data[i * cols + j]? = some d := by
  unfold jacobian
  constructor
  · rintro (rfl | rfl)
    · rfl
    · cases fs <;> rfl
  · intro rows cols data h
    split_ifs at h with h1 h2
    cases hb : jacobianCols cfg vs.length fs 0 vs (List.replicate (fs.length * vs.length) (.int 0)) with
    | error e => simp [hb, Except.map] at h
    | ok buf =>
      simp only [hb, Except.map, Except.ok.injEq, Prod.mk.injEq] at h
      obtain ⟨rfl, rfl, rfl⟩ := h
      obtain ⟨e1, -, e3⟩ := jacobianCols_ok (by simp) (by simp) hb
      refine ⟨rfl, rfl, by rw [e1, List.length_replicate], fun i j f v hf hv => ?_⟩
      obtain ⟨a, d, hd, e⟩ := e3 i j f v hf hv
      refine ⟨d, ?_, by simpa using e⟩
      unfold diff
      rw [if_neg (by decide), hcfg v, if_pos a]
      show diffTimes _ 1 _ = _
      unfold diffTimes
      rw [hd]; rfl

/-! ## Dependence -/

mutual
theorem isFunctionOf_var {v : Head F} (hv : v.isVar = true) : ∀ e : Expr F, Over (fun h as => h.isVar = true → as = []) e →
    (isFunctionOf (.node v []) e = false ↔ Avoids (.node v []) e)
  | .node h as => fun hs => by
    unfold Over at hs
    unfold isFunctionOf Avoids Over
    split_ifs with hr
    · have hl : h.isVar = true := by cases v <;> first | (cases hv; done) | (cases h <;> first | rfl | (simp [Expr.head, Head.rank] at hr))
      rw [hs.1 hl]
      rw [Bool.eq_false_iff, Ne, identical_iff]
      simp [Overs]
    · rw [anyFunctionOf_var hv as hs.2]
      constructor
      · exact fun h => ⟨fun e => hr (by cases e; rfl), h⟩
      · exact fun h => h.2
theorem anyFunctionOf_var {v : Head F} (hv : v.isVar = true) : ∀ es : List (Expr F), Overs (fun h as => h.isVar = true → as = []) es →
    (anyFunctionOf (.node v []) es = false ↔ Overs (fun h as => Expr.node h as ≠ .node v []) es)
  | [] => fun _ => by simp [anyFunctionOf, Overs]
  | e :: es => fun hs => by
    unfold Overs at hs
    unfold anyFunctionOf Overs
    rw [Bool.or_eq_false_iff, isFunctionOf_var hv e hs.1, anyFunctionOf_var hv es hs.2]
    rfl
end

/-- **C15** (dependence). A derivative that is not carried out counts as constant in a variable exactly if the variable does not occur in the
expression it is the derivative of. -/
theorem C15_dependence (D : DiffCfg F) (v : Head F) (hv : v.isVar = true) (hD : D.arg = .node v []) (f x : Expr F) (n : Nat)
    (hf : Over (fun h as => h.isVar = true → as = []) f) :
    (Avoids (.node v []) f → diffE D (.deriv f x n) = .ok (.int 0)) ∧
    (¬ Avoids (.node v []) f → diffE D (.deriv f x n) = derivCreate (.deriv f x n) (.node v []) 1) := by
  have hid : identical (.deriv f x n) (.node v [] : Expr F) = false := by
    rw [Bool.eq_false_iff, Ne, identical_iff]
    intro e; cases e
  have hn : (v.rank = (Head.symfn "" : Head F).rank) = False := by
    cases v <;> first | (cases hv; done) | (simp [Head.rank])
  have key : diffE D (.deriv f x n) = diffDeriv D (.deriv f x n) f := by rw [diffE]; rfl
  rw [key]
  unfold diffDeriv
  rw [hD, hid, if_neg (by decide)]
  constructor
  · exact fun h => if_pos ((isFunctionOf_var hv f hf).2 h)
  · intro h
    rw [if_neg (fun e => h ((isFunctionOf_var hv f hf).1 e))]
    simp [Expr.head, hn]

/-- For a symbolic function this fails: `g(x)` occurs in `f(g(x))`, but the derivative of `diff(f(g(x)), x)` with respect to `g(x)` is zero. -/
theorem C15_nested_functions (K : Ctors ℝ) (beh : NonDiff) (other : Expr ℝ → List (Expr ℝ) → Res (Expr ℝ)) :
    let x : Expr ℝ := .var "x" .real
    let g : Expr ℝ := .symfn "g" [x]
    let f : Expr ℝ := .symfn "f" [g]
    ¬ Avoids g f ∧ diff ⟨K, 3, g, beh, other⟩ (.deriv f x 1) 1 = .ok (.int 0) := by
  intro x g f
  refine ⟨?_, ?_⟩
  · intro h
    unfold Avoids f Over Overs at h
    have := h.2.1
    unfold g Over at this
    exact this.1 rfl
  · have key : diffE ⟨K, 3, g, beh, other⟩ (.deriv f x 1) = diffDeriv ⟨K, 3, g, beh, other⟩ (.deriv f x 1) f := by rw [diffE]; rfl
    have hz : diffDeriv ⟨K, 3, g, beh, other⟩ (.deriv f x 1) f = .ok (.int 0) := by
      have h1 : identical (.deriv f x 1) g = false := by decide +kernel
      have h2 : isFunctionOf g f = false := by decide +kernel
      unfold diffDeriv
      rw [if_neg (by rw [h1]; decide), if_pos h2]
    unfold diff
    rw [if_neg (by decide), if_pos (by rfl)]
    show diffTimes _ 1 _ = _
    unfold diffTimes
    rw [key, hz]; rfl

/-! ## Non-vacuity, and a rule that is wrong for complex arguments -/

/-- The rules that are not modelled are not used in the examples. -/
def noOther : Expr ℝ → List (Expr ℝ) → Res (Expr ℝ) := fun _ _ => .error .assertion

theorem noOther_good : GoodOther noOther := fun _ _ _ _ _ h => by cases h

theorem smooth_var {beh : NonDiff} {S : Env ℝ → Prop} {f : String → ℂ} {t₀ : ℝ} {n : String} {s : NSet} :
    Smooth NoOther beh S (along (valuesOf f) vx) t₀ (.var n s) := by
  by_cases h : identical (.var n s : Expr ℝ) vx = true
  · exact .leaf (z := t₀) rfl rfl (by rw [eval_var_node rfl]; simp [along, Env.setVar, h])
  · exact .leaf (z := f n) rfl rfl (by rw [eval_var_node rfl]; simp [along, Env.setVar, h, valuesOf])

/-- `diff(sin(x * y), x) = cos(x * y) * y` at every point -/
example (t₀ a : ℝ) : LawfulRunOn (fun _ => True) 10 (fun _ K => diff ⟨K, 3, vx, .constant, noOther⟩ (.fn .sin [.mul [vx, vy]]) 1)
      (.mul [.fn .cos [.mul [vx, vy]], vy]) ∧
    Smooth NoOther .constant (fun _ => True) (along (valuesOf fun _ => (a : ℂ)) vx) t₀ (.fn .sin [.mul [vx, vy]]) := by
  refine ⟨⟨by decide +kernel, noLic, fun ρ _ => noLic_true ρ, by decide +kernel⟩, ?_⟩
  refine .fn (z := t₀ * a) (.mul ?_) ?_ trivial
  · simp only [List.mem_cons, List.not_mem_nil, or_false, forall_eq_or_imp, forall_eq]
    exact ⟨smooth_var, smooth_var⟩
  · have e1 : identical (vx : Expr ℝ) vx = true := by decide +kernel
    have e2 : identical (vy : Expr ℝ) vx = false := by decide +kernel
    rw [eval_mul, List.map_cons, List.map_singleton, eval_var_node rfl, eval_var_node rfl]
    simp [along, Env.setVar, e1, e2, valuesOf, prodO_cons]

/-- `diff((x + y) ** 3, x) = 3 * (x + y) ** 2`, also where `x + y` is zero -/
example (t₀ : ℝ) : LawfulRunOn (fun _ => True) 10 (fun _ K => diff ⟨K, 3, vx, .constant, noOther⟩ (.pow (.add [vx, vy]) (.int 3)) 1)
      (.mul [.int 3, .pow (.add [vx, vy]) (.int 2)]) ∧
    Smooth NoOther .constant (fun _ => True) (along (valuesOf fun _ => (-t₀ : ℂ)) vx) t₀ (.pow (.add [vx, vy]) (.int 3)) := by
  refine ⟨⟨by decide +kernel, noLic, fun ρ _ => noLic_true ρ, by decide +kernel⟩, ?_⟩
  refine .powZero (ρ₁ := valuesOf fun _ => 1) (z := 2) (.add ?_) (by norm_num) trivial ?_ (by norm_num)
  · simp only [List.mem_cons, List.not_mem_nil, or_false, forall_eq_or_imp, forall_eq]
    exact ⟨smooth_var, smooth_var⟩
  · rw [eval_add, List.map_cons, List.map_singleton, eval_var, eval_var]
    simp [sumO_cons]; norm_num

/-- `jacobian([x * y, x + y], [x, y])` -/
example : jacobian (fun v => ⟨ctors codeLic 8, 3, v, .constant, noOther⟩) [.mul [vx, vy], .add [vx, vy]] [vx, vy] =
    .ok (2, 2, [vy, vx, .int 1, .int 1]) := by decide +kernel

/-- The derivative of an absolute value is wrong if the argument is not real: `diff(abs(x + i), x) = (x + i) / abs(x + i)` has the value
`(1 + i) / sqrt(2)` at `x = 1`, but `abs(x + i) = sqrt(x ** 2 + 1)` has the derivative `1 / sqrt(2)`. -/
theorem C15_abs_complex :
    let e : Expr ℝ := .fn .abs [.add [vx, .imag]]
    let d : Expr ℝ := .mul [.add [vx, .imag], .pow e (.int (-1))]
    let ρ := along (valuesOf fun _ => 0) vx
    diff ⟨ctors codeLic 8, 3, vx, .constant, noOther⟩ e 1 = .ok d ∧
    ∃ (g : ℝ → ℂ) (g' w : ℂ), (∀ t, eval (ρ t) e = some (g t)) ∧ HasDerivAt g g' 1 ∧ eval (ρ 1) d = some w ∧ w ≠ g' := by
  intro e d ρ
  have e1 : identical (vx : Expr ℝ) vx = true := by decide +kernel
  have hx : ∀ t : ℝ, eval (ρ t) vx = some (t : ℂ) := fun t => by
    rw [eval_var_node rfl]; simp [ρ, along, Env.setVar, e1]
  have ha : ∀ t : ℝ, eval (ρ t) (.add [vx, .imag]) = some (t + I) := fun t => by
    rw [eval_add, List.map_cons, List.map_singleton, hx, eval_imag]; simp [sumO_cons]
  have he : ∀ t : ℝ, eval (ρ t) e = some ((‖(t + I : ℂ)‖ : ℝ) : ℂ) := fun t => by
    rw [eval_fn1, fn1, ha]; rfl
  have hn : ∀ t : ℝ, ‖(t + I : ℂ)‖ = Real.sqrt (t ^ 2 + 1) := fun t => by
    rw [Complex.norm_eq_sqrt_sq_add_sq]; simp
  have hder : HasDerivAt (fun t : ℝ => ((Real.sqrt (t ^ 2 + 1) : ℝ) : ℂ)) _ 1 :=
    HasDerivAt.ofReal_comp (((hasDerivAt_pow 2 (1 : ℝ)).add_const 1).sqrt (by norm_num))
  have hpos : 0 < ‖(1 + I : ℂ)‖ := by
    have := hn 1
    push_cast at this
    rw [this]; positivity
  refine ⟨by decide +kernel, _, _, (1 + I) * ((‖(1 + I : ℂ)‖ : ℝ) : ℂ)⁻¹, fun t => by rw [he, hn], hder, ?_, ?_⟩
  · have hne : ((‖(1 + I : ℂ)‖ : ℝ) : ℂ) ≠ 0 := ofReal_ne_zero.2 hpos.ne'
    have h1 := ha 1
    have h2 := he 1
    rw [ofReal_one] at h1 h2
    rw [eval_mul, List.map_cons, List.map_singleton, h1, eval_pow, h2, eval_int]
    show prodO [_, powVal _ _] = _
    rw [powVal_of_ne hne]
    simp [prodO_cons, cpow_neg_one]
  · intro h
    have h1 := congrArg Complex.im h
    rw [← ofReal_inv, ofReal_im, im_mul_ofReal, add_im, one_im, I_im, zero_add, one_mul] at h1
    exact (inv_pos.2 hpos).ne' h1

end Wf.Sym
