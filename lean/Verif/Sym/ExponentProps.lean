import Verif.Sym.ExponentLower
import Verif.Sym.ExponentRebuild
import Verif.Sym.ExponentDiff
import Verif.Sym.FunctionProps
import Verif.Sym.SubstituteProps
import Verif.Sym.DistributeProps
import Verif.Sym.CseProps
import Verif.Sym.DerivativeProps
import Verif.Sym.PipelineProps

/-!
# The values, without a condition on the power rules

The theorems about values ask that the power rules the code uses are laws (`LawfulRun`). Here this condition is dropped for the expressions of
`ExponentSpec.lean`: on them the code needs no power rule that is not a law, so the theorems hold for everything the code computes.
-/

namespace Wf.Sym
open Complex Filter Topology
open Wf.Gen (Prim Op Interp Writes WF InOrder AstInfo Graph Stmt Selects runAll Store)

variable {F : Type} [DecidableEq F] [FnSem F]

/-- The same result with the true answers makes a run lawful. -/
theorem lawful_of_tr {B : Expr F → Prop} {n : Nat} {run : Ctors F → Res (Expr F)} {r : Expr F} (h : Tr B (run (ctors codeLic n)) (run (ctors sureLic n)))
    (hr : run (ctors codeLic n) = .ok r) (ρ : Env F) : LawfulRun ρ n run r :=
  ⟨hr, sureLic, sureLic_true ρ, (h r hr).1⟩

/-! ## Sums, products, powers and functions -/

/-- **C12** (value). The sum the code makes of any operands with safe powers has the sum of their values, under every assignment where they have
values; and it has safe powers again. -/
theorem C12_sum_unconditional (n : Nat) (ts : List (Expr F)) (r : Expr F) (hg : ∀ t ∈ ts, Good t) (hs : ∀ t ∈ ts, SafePowers t)
    (h : (ctors codeLic n).add ts = .ok r) : SafePowers r ∧ Good r ∧ ∀ (ρ : Env F) z, sumO (ts.map (eval ρ)) = some z → eval ρ r = some z := by
  have h1 := tr_add (safe_agrees n) hs
  have h2 : ∀ ρ, _ := fun ρ => C12_sum_value ρ n ts r hg (lawful_of_tr (run := fun K => K.add ts) h1 h ρ)
  exact ⟨(h1 r h).2, (h2 ⟨fun _ => none, fun _ _ => none, fun _ _ => none⟩).1, fun ρ => (h2 ρ).2⟩

/-- **C13**. The product the code makes of any operands with safe powers has the product of their values. -/
theorem C13_product_unconditional (n : Nat) (ts : List (Expr F)) (r : Expr F) (hg : ∀ t ∈ ts, Good t) (hs : ∀ t ∈ ts, SafePowers t)
    (h : (ctors codeLic n).mul ts = .ok r) : SafePowers r ∧ Good r ∧ ∀ (ρ : Env F) z, prodO (ts.map (eval ρ)) = some z → eval ρ r = some z := by
  have h1 := tr_mul (safe_agrees n) hs
  have h2 : ∀ ρ, _ := fun ρ => C13_product_value ρ n ts r hg (lawful_of_tr (run := fun K => K.mul ts) h1 h ρ)
  exact ⟨(h1 r h).2, (h2 ⟨fun _ => none, fun _ _ => none, fun _ _ => none⟩).1, fun ρ => (h2 ρ).2⟩

/-- **C52**. A power the code makes has the principal power of the values, if the exponent is an integer, or the base is not a product, a power, an
exponential or a float (and a numeric base has a numeric exponent). -/
theorem C52_power_unconditional (n : Nat) (b e r : Expr F) (hb : Good b) (he : Good e) (hsb : SafePowers b) (hse : SafePowers e)
    (hp : PowArgs (fun b => simpleBase b = true) b e) (h : (ctors codeLic n).pow b e = .ok r) :
    SafePowers r ∧ Good r ∧ ∀ (ρ : Env F) z, powO (eval ρ b) (eval ρ e) = some z → eval ρ r = some z := by
  have h1 := tr_pow (safe_agrees n) hsb hse (Or.inl hp)
  have h2 : ∀ ρ, _ := fun ρ => C52_power_value ρ n b e r hb he (lawful_of_tr (run := fun K => K.pow b e) h1 h ρ)
  exact ⟨(h1 r h).2, (h2 ⟨fun _ => none, fun _ _ => none, fun _ _ => none⟩).1, fun ρ => (h2 ρ).2⟩

/-- **C23**. What a function of one argument returns, for an argument with safe powers, has the value of the function. -/
theorem C23_function_unconditional (n m : Nat) (f : BuiltIn) (x r : Expr F) (hx : Good x) (hs : SafePowers x) (h : fns (ctors codeLic n) m f x = .ok r) :
    SafePowers r ∧ ∀ (ρ : Env F) (v z : ℂ), eval ρ x = some v → fnVal f [v] = some z → eval ρ r = some z := by
  have h1 := tr_fns (safe_agrees n) m f hs
  exact ⟨(h1 r h).2, fun ρ v z => C23_function_value n m f x r hx ρ (lawful_of_tr (run := fun K => fns K m f x) h1 h ρ) v z⟩

/-- **C23**. `atan2` likewise. -/
theorem C23_atan2_unconditional (n : Nat) (y x r : Expr F) (hy : Good y) (hx : Good x) (hsy : SafePowers y) (hsx : SafePowers x)
    (h : atan2Fn (ctors codeLic n) y x = .ok r) : SafePowers r ∧ ∀ (ρ : Env F) (b a : ℝ), eval ρ y = some (b : ℂ) → eval ρ x = some (a : ℂ) →
      ¬ (a = 0 ∧ b = 0) → eval ρ r = some ((arg ⟨a, b⟩ : ℝ) : ℂ) := by
  have h1 := tr_atan2Fn (safe_agrees n) hsy hsx
  exact ⟨(h1 r h).2, fun ρ b a hb ha h0 => C23_atan2_value n y x r hy hx ρ (lawful_of_tr (run := fun K => atan2Fn K y x) h1 h ρ) b a hb ha h0⟩

/-! ## Rewriting -/

/-- **C17**. Substituting variables in an expression with integer exponents: with one pair, or with several that the code substitutes at once, the result
has the value that the expression has when every target has the value of its replacement. -/
theorem C17_unconditional (nK m n : Nat) (force : Bool) (e r : Expr F) (pairs : List (Expr F × Expr F))
    (ht : ∀ p ∈ pairs, p.1.head.isVar = true ∨ isVarOrElem p.1 = true) (hs : ∀ p ∈ pairs, Good p.2 ∧ IntPowers p.2) (he : Plain e) (hg : Good e)
    (hi : IntPowers e) (hu : pairs.length = 1 ∨ 1 < pairs.length ∧ (unorderedPairs force [] pairs).isSome)
    (h : substAny (ctors codeLic nK) codeLic m n force e pairs = .ok r) :
    IntPowers r ∧ Good r ∧ ∀ (ρ : Env F) z, eval (ρ.bindAll pairs) e = some z → eval ρ r = some z := by
  have h1 := tr_substAny (lic := codeLic) (lic' := sureLic) (int_agrees nK) m n force pairs (fun p hp => ⟨ht p hp, (hs p hp).2⟩) hi
  refine ⟨(h1 r h).2, ?_⟩
  have h2 := (h1 r h).1
  have key : ∀ ρ : Env F, Good r ∧ ∀ z, eval (ρ.bindAll pairs) e = some z → eval ρ r = some z := by
    intro ρ
    have hv : substVars (ctors sureLic nK) m n pairs e = .ok r := by
      unfold substAny at h2
      by_cases hn : 1 < pairs.length
      · rw [if_pos hn] at h2
        rcases hu with hu | hu
        · omega
        · obtain ⟨τ, hτ⟩ := Option.isSome_iff_exists.1 hu.2
          obtain ⟨h3, _⟩ := unorderedPairs_eq hτ
          rw [List.nil_append] at h3
          subst h3
          simpa only [hτ] using h2
      · rw [if_neg hn] at h2
        match pairs, ht, h2, hu, hn with
        | [], _, h2, hu, _ =>
          rcases hu with hu | hu
          · cases hu
          · exact absurd hu.1 (by simp)
        | [(x, s)], ht, h2, _, _ =>
          rw [substSeq, foldRes, substSingle_var (ht (x, s) (by simp))] at h2
          cases hv : substVars (ctors sureLic nK) m n [(x, s)] e with
          | error er => simp [hv] at h2
          | ok r' => simpa only [hv, foldRes] using h2
        | _ :: _ :: _, _, _, _, hn => simp at hn
    obtain ⟨h3, h4⟩ := substVars_ok (ctors_sound sureLic ρ nK) (fun p hp => ⟨var_or_opaque (ht p hp), (hs p hp).1⟩) n e r he hg hv
    exact ⟨h3, h4 (sureLic_true ρ)⟩
  exact ⟨(key ⟨fun _ => none, fun _ _ => none, fun _ _ => none⟩).1, fun ρ => (key ρ).2⟩

/-- **C18**. `distribute(e)` has the value of `e`, for every `e` with integer exponents and wherever `e` has a value. -/
theorem C18_distribute_unconditional (nK m n : Nat) (e r : Expr F) (he : Plain e) (hg : Good e) (hi : IntPowers e)
    (h : distribute (ctors codeLic nK) m n e = .ok r) : IntPowers r ∧ Good r ∧ ∀ (ρ : Env F) z, eval ρ e = some z → eval ρ r = some z := by
  have h1 := tr_distribute (int_agrees nK) m n hi
  have h2 : ∀ ρ, _ := fun ρ => C18_distribute_value ρ nK m n e r he hg (lawful_of_tr (run := fun K => distribute K m n e) h1 h ρ)
  exact ⟨(h1 r h).2, (h2 ⟨fun _ => none, fun _ _ => none, fun _ _ => none⟩).1, fun ρ => (h2 ρ).2⟩

/-- **C19**. `collect(e, terms)` has the value of `e`, for expressions with integer exponents and wherever `e` has a value. -/
theorem C19_collect_unconditional (nK m n : Nat) (e r : Expr F) (ts : List (Expr F)) (he : Plain e) (hg : Good e) (hi : IntPowers e)
    (hts : ∀ t ∈ ts, Good t ∧ IntPowers t) (h : collectMany (ctors codeLic nK) m n e ts = .ok r) :
    IntPowers r ∧ Good r ∧ ∀ (ρ : Env F) z, eval ρ e = some z → eval ρ r = some z := by
  have h1 := tr_collectMany (int_agrees nK) m n (fun t ht => (hts t ht).2) hi
  have h2 : ∀ ρ, _ := fun ρ => C19_collect_value ρ nK m n e r ts he hg (fun t ht => (hts t ht).1) (lawful_of_tr (run := fun K => collectMany K m n e ts) h1 h ρ)
  exact ⟨(h1 r h).2, (h2 ⟨fun _ => none, fun _ _ => none, fun _ _ => none⟩).1, fun ρ => (h2 ρ).2⟩

/-- **C20** (values). After common sub-expression elimination in an expression (or matrix) with integer exponents: in every assignment that gives the new
variables the values of their definitions, and agrees with `ρ` on the other variables, each rewritten expression has the value that the original has
under `ρ`. -/
theorem C20_values_unconditional (nK m min : Nat) (var : Nat → Expr F) (e r : Expr F) (repl : List (Expr F × Expr F)) (hv : Fresh var e)
    (he : ∀ a ∈ entries e, Plain a ∧ Good a) (hi : IntPowers e) (h : cse (ctors codeLic nK) m var min e = .ok (r, repl)) (ρ ρ' : Env F)
    (hs : ρ'.symfn = ρ.symfn) (hvars : ∀ h, (∀ i, Expr.node h [] ≠ var i) → ρ'.leaf h = ρ.leaf h) (hdef : ∀ p ∈ repl, eval ρ' p.1 = eval ρ' p.2) :
    List.Forall₂ (fun a b => ∀ z, eval ρ a = some z → eval ρ' b = some z) (entries e) (entries r) := by
  have hleaf : ∀ i, ∃ h : Head F, var i = .node h [] ∧ h ≠ .pow := by
    intro i
    obtain ⟨h1, h2⟩ := hv.isVar i
    generalize var i = v at h1 h2
    obtain ⟨hd, as⟩ := v
    refine ⟨hd, ?_, ?_⟩
    · simp only [Expr.args] at h2; rw [h2]
    · rintro rfl; cases h1
  exact C20_values ρ ρ' nK m min var e r repl hv he
    ⟨h, sureLic, fun ρ _ => sureLic_true ρ, (gives_cse (int_agrees nK) hleaf hi h).1⟩ hs hvars hdef

/-! ## Derivatives -/

/-- **C15**. For an expression with safe powers and without `asin`, `acos`, `asinh` and `acosh`: wherever it is smooth, the value of `diff(e, v)` is the
derivative of the value of `e`. -/
theorem C15_derivative_unconditional (n m : Nat) (v : Head F) (beh : NonDiff) (other : Expr F → List (Expr F) → Res (Expr F)) (e d : Expr F)
    (hv : v.isVar = true) (hO : GoodOther other) (hs : ∀ e ds r, other e ds = .ok r → SafePowers r) (hg : Good e) (hp : SafePowers e) (hr : Rootless e)
    (h : diff ⟨ctors codeLic n, m, .node v [], beh, other⟩ e 1 = .ok d) (ρ : Env F) (t₀ : ℝ)
    (hsm : Smooth NoOther beh (fun _ => True) (along ρ (.node v [])) t₀ e) :
    Good d ∧ ∃ (g : ℝ → ℂ) (g' : ℂ), (∀ᶠ t in 𝓝 t₀, eval (along ρ (.node v []) t) e = some (g t)) ∧ HasDerivAt g g' t₀ ∧
      eval (along ρ (.node v []) t₀) d = some g' := by
  have hvar : SafePowers (.node v [] : Expr F) := oLeaf (by rintro rfl; cases hv)
  have h1 := tr_diff1 (D := ⟨ctors codeLic n, m, .node v [], beh, other⟩) (D' := ⟨ctors sureLic n, m, .node v [], beh, other⟩) (safe_agrees n) rfl hvar hs hp hr
  exact C15_derivative (fun _ => True) ρ t₀ n m v beh other e d hv hO hg trivial hsm ⟨h, sureLic, fun ρ _ => sureLic_true ρ, (h1 d h).1⟩

/-! ## Lowering and the whole pipeline -/

/-- **C34**. The lowering of expressions whose powers have integer exponents, or bases that are sums, variables or constants: a program that writes exactly
the outputs of the function, in order, and to every output the value of its expression wherever that has a value. -/
theorem C34_outputs_unconditional (ρ : Env F) (hT : TypedEnv ρ) (nK m n : Nat) (outs : List (Nat × Output F))
    (hg : ∀ o ∈ outs, ∀ e ∈ o.2.exprs, Plain e ∧ Good e) (hp : ∀ o ∈ outs, ∀ e ∈ o.2.exprs, PlainPowers e) (s : Low F)
    (h : lowerFunction (ctors codeLic nK) m n Low.empty outs = .ok s) :
    WF s.g ∧ InOrder s.g ∧ written s.g = outs.map Prod.fst ∧
    (NotesOk ρ s.notes → ∀ I : Interp ℂ, Agrees I ρ s.leaves → ∀ o ∈ outs, ∀ x, OutputValue I ρ o.2 x → Writes I s.g o.1 x ∧
      ((outs.map Prod.fst).Nodup → ∀ y, Writes I s.g o.1 y → y = x)) :=
  C34_outputs ρ hT nK m n outs hg s (lowering_lawful hp h)

/-- **C55**. For these expressions: if the lowering succeeds, the whole generation succeeds, and the statements compute the outputs. -/
theorem C55_transpile_unconditional {info : AstInfo} (ρ : Env F) (hT : TypedEnv ρ) (nK m n : Nat) (outs : List (Nat × Output F))
    (hg : ∀ o ∈ outs, ∀ e ∈ o.2.exprs, Plain e ∧ Good e) (hp : ∀ o ∈ outs, ∀ e ∈ o.2.exprs, PlainPowers e)
    (hs : Signature info outs) (hget : ∀ i, info.scalarGet i = false) (s : Low F) (h : lowerFunction (ctors codeLic nK) m n Low.empty outs = .ok s)
    (opt : Options) (cast : Graph → Nat → Option Nat) :
    ∃ N ss, (∀ fuel, N ≤ fuel → transpile (ctors codeLic nK) m n info opt cast fuel outs = .ok ss) ∧
      ∀ (I : Interp ℂ) (truth : ℂ → Bool), Selects I truth →
        ∃ st : Store ℂ, runAll I truth ss .start = some st ∧ (st.out.map Prod.fst).Perm ((outs.map Prod.fst).filter (Wanted info I truth)) ∧
          (NotesOk ρ s.notes → Agrees I ρ s.leaves → ∀ o ∈ outs, Wanted info I truth o.1 = true → ∀ x, OutputValue I ρ o.2 x → (o.1, x) ∈ st.out) :=
  C55_transpile ρ hT nK m n outs hg hs hget s (lowering_lawful hp h) opt cast

/-! ## Examples -/

theorem oPowInt {B : Expr F → Prop} {b : Expr F} {n : Int} (hb : Over (ExpNode B) b) (hn : InI64 n) : Over (ExpNode B) (.pow b (.int n)) :=
  oPow.2 ⟨⟨hb, oInt n⟩, Or.inl ⟨n, rfl, hn⟩⟩

theorem oVar {B : Expr F → Prop} (n : String) (s : NSet) : Over (ExpNode B) (.var n s : Expr F) := oLeaf (by simp)

theorem good_sqrt : Good (.pow vy half : Expr ℝ) := good_node.2 ⟨trivial, by
  rw [List.forall_mem_cons, List.forall_mem_singleton]; exact ⟨good_var _ _, good_half⟩⟩

theorem safe_sqrt : SafePowers (.pow vy half : Expr ℝ) := oPow.2 ⟨⟨oVar _ _, oRat _⟩, Or.inr ⟨rfl, fun h => by cases h⟩⟩

/-- `y ** (1/2) * x * y ** (1/2)` is `x * y`, whatever the sign of `y`. -/
example : (ctors codeLic 6).mul [.pow vy half, vx, .pow vy half] = .ok (.mul [vx, vy]) ∧
    ∀ (ρ : Env ℝ) z, prodO ([.pow vy half, vx, .pow vy half].map (eval ρ)) = some z → eval ρ (.mul [vx, vy]) = some z := by
  have h : (ctors codeLic 6).mul [.pow vy half, vx, .pow vy half] = .ok (.mul [vx, vy]) := by decide +kernel
  refine ⟨h, (C13_product_unconditional 6 _ _ ?_ ?_ h).2.2⟩
  · intro t ht
    simp only [List.mem_cons, List.not_mem_nil, or_false] at ht
    rcases ht with rfl | rfl | rfl
    exacts [good_sqrt, good_var _ _, good_sqrt]
  · intro t ht
    simp only [List.mem_cons, List.not_mem_nil, or_false] at ht
    rcases ht with rfl | rfl | rfl
    exacts [safe_sqrt, oVar _ _, safe_sqrt]

/-- `y ** (1/2) + x + y ** (1/2)` is `2 * y ** (1/2) + x`. -/
example : (ctors codeLic 6).add [.pow vy half, vx, .pow vy half] = .ok (.add [.mul [.int 2, .pow vy half], vx]) ∧
    ∀ (ρ : Env ℝ) z, sumO ([.pow vy half, vx, .pow vy half].map (eval ρ)) = some z → eval ρ (.add [.mul [.int 2, .pow vy half], vx]) = some z := by
  have h : (ctors codeLic 6).add [.pow vy half, vx, .pow vy half] = .ok (.add [.mul [.int 2, .pow vy half], vx]) := by decide +kernel
  refine ⟨h, (C12_sum_unconditional 6 _ _ ?_ ?_ h).2.2⟩
  · intro t ht
    simp only [List.mem_cons, List.not_mem_nil, or_false] at ht
    rcases ht with rfl | rfl | rfl
    exacts [good_sqrt, good_var _ _, good_sqrt]
  · intro t ht
    simp only [List.mem_cons, List.not_mem_nil, or_false] at ht
    rcases ht with rfl | rfl | rfl
    exacts [safe_sqrt, oVar _ _, safe_sqrt]

/-- `(x * y ** (1/2)) ** 2` is `x ** 2 * y`. -/
example : (ctors codeLic 6).pow (.mul [vx, .pow vy half]) (.int 2) = .ok (.mul [.pow vx (.int 2), vy]) ∧
    ∀ (ρ : Env ℝ) z, powO (eval ρ (.mul [vx, .pow vy half])) (eval ρ (.int 2)) = some z → eval ρ (.mul [.pow vx (.int 2), vy]) = some z := by
  have h : (ctors codeLic 6).pow (.mul [vx, .pow vy half]) (.int 2) = .ok (.mul [.pow vx (.int 2), vy]) := by decide +kernel
  have hg : Good (.mul [vx, .pow vy half] : Expr ℝ) := good_node.2 ⟨by simp [GoodNode, isNumeric, Expr.head], by
    rw [List.forall_mem_cons, List.forall_mem_singleton]; exact ⟨good_var _ _, good_sqrt⟩⟩
  exact ⟨h, (C52_power_unconditional 6 _ _ _ hg (good_int.2 (by decide)) (oMul.2 (o2 (oVar _ _) safe_sqrt)) (oInt 2) (Or.inl ⟨2, rfl, by decide⟩) h).2.2⟩

/-- `cos(- y ** (1/2))` is `cos(y ** (1/2))`. -/
example : fns (ctors codeLic 8) 3 .cos (.mul [.int (-1), .pow vy half]) = .ok (.fn .cos [.pow vy half]) ∧
    SafePowers (.mul [.int (-1), .pow vy half] : Expr ℝ) :=
  ⟨by decide +kernel, oMul.2 (o2 (oInt _) safe_sqrt)⟩

theorem int_square : IntPowers (.add [.mul [vx, vy], .pow vx (.int 2)] : Expr ℝ) :=
  oAdd.2 (o2 (oMul.2 (o2 (oVar _ _) (oVar _ _))) (oPowInt (oVar _ _) (by decide)))

/-- `(x * y + x ** 2).subs(x, z + 1)` -/
example : substAny (ctors codeLic 6) codeLic 1 5 false (.add [.mul [vx, vy], .pow vx (.int 2)]) [(vx, .add [.int 1, vz])] =
      .ok (.add [.pow (.add [.int 1, vz]) (.int 2), .mul [vy, .add [.int 1, vz]]]) ∧
    IntPowers (.add [.mul [vx, vy], .pow vx (.int 2)] : Expr ℝ) ∧ IntPowers (.add [.int 1, vz] : Expr ℝ) :=
  ⟨by decide +kernel, int_square, oAdd.2 (o2 (oInt 1) (oVar _ _))⟩

/-- `distribute((x + y) ** 3)` has the value of `(x + y) ** 3` everywhere. -/
example (ρ : Env ℝ) (z : ℂ) (hz : eval ρ (.pow (.add [vx, vy]) (.int 3)) = some z) :
    eval ρ (.add [.mul [.pow vx (.int 2), .int 3, vy], .mul [.pow vy (.int 2), .int 3, vx], .pow vx (.int 3), .pow vy (.int 3)]) = some z := by
  refine (C18_distribute_unconditional 8 1 8 (.pow (.add [vx, vy]) (.int 3)) _ ?_ ?_ ?_ (by decide +kernel)).2.2 ρ z hz
  · simp [Plain, Over, Overs, Head.plain, Head.interpreted, Head.isLeaf]
  · simp [Good, Goods, GoodNode, InI64_iff]
  · exact oPowInt (oAdd.2 (o2 (oVar _ _) (oVar _ _))) (by decide)

/-- `collect(x * y + x ** 2 * y + x ** 2, [x])` -/
example : collectMany (ctors codeLic 8) 1 8 (.add [.mul [vx, vy], .mul [vy, .pow vx (.int 2)], .pow vx (.int 2)]) [vx] =
      .ok (.add [.mul [.pow vx (.int 2), .add [.int 1, vy]], .mul [vx, vy]]) ∧
    IntPowers (.add [.mul [vx, vy], .mul [vy, .pow vx (.int 2)], .pow vx (.int 2)] : Expr ℝ) := by
  have hp : IntPowers (.pow vx (.int 2) : Expr ℝ) := oPowInt (oVar _ _) (by decide)
  refine ⟨by decide +kernel, oAdd.2 fun t ht => ?_⟩
  simp only [List.mem_cons, List.not_mem_nil, or_false] at ht
  rcases ht with rfl | rfl | rfl
  exacts [oMul.2 (o2 (oVar _ _) (oVar _ _)), oMul.2 (o2 (oVar _ _) hp), hp]

/-- `x * y + cos(x * y) ** 2`: one definition. -/
example : cse (ctors codeLic 8) 3 defaultVar 2 (.add [.mul [vx, vy], .pow (.fn .cos [.mul [vx, vy]]) (.int 2)] : Expr ℝ) =
      .ok (.add [.var "v0" .unknown, .pow (.fn .cos [.var "v0" .unknown]) (.int 2)], [(.var "v0" .unknown, .mul [vx, vy])]) ∧
    IntPowers (.add [.mul [vx, vy], .pow (.fn .cos [.mul [vx, vy]]) (.int 2)] : Expr ℝ) := by
  have hm : IntPowers (.mul [vx, vy] : Expr ℝ) := oMul.2 (o2 (oVar _ _) (oVar _ _))
  exact ⟨by decide +kernel, oAdd.2 (o2 hm (oPowInt (oFn.2 (by simpa using hm)) (by decide)))⟩

/-- The derivative of `(x + y) ** 3` by `x`, also where `x + y` is zero. -/
example (t₀ : ℝ) : ∃ (g : ℝ → ℂ) (g' : ℂ), (∀ᶠ t in 𝓝 t₀, eval (along (valuesOf fun _ => (-t₀ : ℂ)) vx t) (.pow (.add [vx, vy]) (.int 3)) = some (g t)) ∧
    HasDerivAt g g' t₀ ∧ eval (along (valuesOf fun _ => (-t₀ : ℂ)) vx t₀) (.mul [.int 3, .pow (.add [vx, vy]) (.int 2)]) = some g' := by
  refine (C15_derivative_unconditional 10 3 _ .constant noOther (.pow (.add [vx, vy]) (.int 3)) (.mul [.int 3, .pow (.add [vx, vy]) (.int 2)]) rfl noOther_good
    (fun _ _ _ h => by cases h) ?_ ?_ ?_ (by decide +kernel) (valuesOf fun _ => (-t₀ : ℂ)) t₀ ?_).2
  · simp [Good, Goods, GoodNode, InI64_iff]
  · exact oPowInt (oAdd.2 (o2 (oVar _ _) (oVar _ _))) (by decide)
  · simp [Rootless, Over, Overs, rootless]
  · refine .powZero (ρ₁ := valuesOf fun _ => 1) (z := 2) (.add ?_) (by norm_num) trivial ?_ (by norm_num)
    · simp only [List.mem_cons, List.not_mem_nil, or_false, forall_eq_or_imp, forall_eq]
      exact ⟨smooth_var, smooth_var⟩
    · rw [eval_add, List.map_cons, List.map_singleton, eval_var, eval_var]
      simp [sumO_cons]; norm_num

/-- The outputs of the example of the whole pipeline have powers of the required kind. -/
example : ∀ o ∈ pipeExample, ∀ e ∈ o.2.exprs, PlainPowers e := by
  intro o ho e he
  simp only [pipeExample, List.mem_cons, List.not_mem_nil, or_false] at ho
  rcases ho with rfl | rfl | rfl <;> simp only [Output.exprs, List.mem_cons, List.not_mem_nil, or_false] at he
  · rcases he with rfl | rfl
    · exact oVar _ _
    · exact oPow.2 ⟨⟨oVar _ _, oRat _⟩, Or.inr ⟨rfl, fun h => by cases h⟩⟩
  · subst he; exact oAdd.2 (o2 (oVar _ _) (oVar _ _))
  · subst he
    refine (oNode (by simp)).2 fun a ha => ?_
    simp only [List.mem_cons, List.not_mem_nil, or_false] at ha
    rcases ha with rfl | rfl | rfl
    · exact (oNode (by simp)).2 (o2 (oVar _ _) (oVar _ _))
    · exact oMul.2 (o2 (oVar _ _) (oVar _ _))
    · exact oPowInt (oVar _ _) (by decide)

end Wf.Sym
