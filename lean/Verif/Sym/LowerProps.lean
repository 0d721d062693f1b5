import Verif.Sym.LowerOutput
import Verif.Sym.ValueProps
import Verif.Gen.FactorizeProps

/-!
# C34: lowering to the intermediate form

`LowerSpec.lean` says what the lowered program has to compute, `GraphSpec.lean` how a program runs.
-/

namespace Wf.Sym
open Complex
open Wf.Gen (Prim Op Interp Writes WF InOrder)

variable {F : Type} [DecidableEq F] [FnSem F]

/-- **C34**. Lowering the outputs of a function gives a program that writes exactly these outputs, in order, and to every output the value of its
expression: whenever the expression has a value (of its declared type), in every interpretation of the operations that computes what their names
say. The program is well-formed and every operation comes after its operands. -/
theorem C34_outputs (ρ : Env F) (hT : TypedEnv ρ) (nK m n : Nat) (outs : List (Nat × Output F)) (hg : ∀ o ∈ outs, ∀ e ∈ o.2.exprs, Plain e ∧ Good e)
    (s : Low F) (h : LawfulLowering ρ nK m n outs s) :
    WF s.g ∧ InOrder s.g ∧ written s.g = outs.map Prod.fst ∧
    (NotesOk ρ s.notes → ∀ I : Interp ℂ, Agrees I ρ s.leaves → ∀ o ∈ outs, ∀ x, OutputValue I ρ o.2 x → Writes I s.g o.1 x ∧
      ((outs.map Prod.fst).Nodup → ∀ y, Writes I s.g o.1 y → y = x)) := by
  obtain ⟨h1, h2, _, h3, h4⟩ := lawful_ok h hT hg
  refine ⟨h1, h2, h3, fun hn I hI o ho x hx => ⟨h4 hn I hI.in o ho x hx.in, fun hd y hy => ?_⟩⟩
  exact writes_unique (h3 ▸ hd) h1.nodup hy (h4 hn I hI.in o ho x hx.in)

/-- **C34** with **C51**. The same for the program after all optimisation passes. -/
theorem C34_optimised (ρ : Env F) (hT : TypedEnv ρ) (nK m n : Nat) (outs : List (Nat × Output F)) (hg : ∀ o ∈ outs, ∀ e ∈ o.2.exprs, Plain e ∧ Good e)
    (s : Low F) (h : LawfulLowering ρ nK m n outs s) (hd : (outs.map Prod.fst).Nodup)
    (passes : Nat) (binarize : Bool) (cast : Gen.Graph → Nat → Option Nat) :
    ∃ N g', (∀ fuel, N ≤ fuel → s.g.applySimplifications cast passes binarize fuel = .ok g') ∧
    (NotesOk ρ s.notes → ∀ I : Interp ℂ, Agrees I ρ s.leaves → ∀ o ∈ outs, ∀ x, OutputValue I ρ o.2 x → Writes I g' o.1 x ∧ ∀ y, Writes I g' o.1 y → y = x) := by
  obtain ⟨h1, h2, _, h4⟩ := C34_outputs ρ hT nK m n outs hg s h
  obtain ⟨N, g', k1, _, _, k2⟩ := Gen.C51_optimise cast passes binarize s.g h1 h2
  refine ⟨N, g', k1, fun hn I hI o ho x hx => ?_⟩
  obtain ⟨e1, e2⟩ := h4 hn I hI o ho x hx
  exact ⟨(k2 ℂ I o.1 x).2 e1, fun y hy => e2 hd y ((k2 ℂ I o.1 y).1 hy)⟩

/-- **C34**. The types of the lowered program fit together. -/
theorem C34_types (ρ : Env F) (hT : TypedEnv ρ) (nK m n : Nat) (outs : List (Nat × Output F)) (hg : ∀ o ∈ outs, ∀ e ∈ o.2.exprs, Plain e ∧ Good e)
    (s : Low F) (h : LawfulLowering ρ nK m n outs s) : WellTyped s :=
  (lawful_ok h hT hg).2.2.1

/-! ## The hypotheses can be met -/

/-- An interpretation that computes what the names say, with zero where there is no value. -/
noncomputable def exactInterp (ρ : Env F) (leaves : List (Expr F)) : Interp ℂ where
  f op l := match op, l with
    | .add, l => l.sum
    | .mul, l => l.prod
    | .neg, [x] => -x
    | .copy, [x] => x
    | .cast _, [x] => x
    | .div, [a, b] => a / b
    | .cond, [c, a, b] => if c = 1 then a else b
    | .load (.int n), _ => n
    | .load (.other k), _ => ((leaves[k]?).bind (eval ρ)).getD 0
    | .compare k, [a, b] => ((if k = relCode .lt then relVal .lt a b else if k = relCode .le then relVal .le a b else relVal .eq a b)).getD 0
    | .callStd k, l =>
      if k = Std.sqrt.code then (match l with | [a] => (powVal a (1 / 2)).getD 0 | _ => 0)
      else if k = Std.powf.code ∨ k = Std.powi.code then (match l with | [a, b] => (powVal a b).getD 0 | _ => 0)
      else ((([BuiltIn.cos, .sin, .tan, .arccos, .arcsin, .arctan, .cosh, .sinh, .tanh, .arccosh, .arcsinh, .arctanh, .log, .exp, .abs, .signum, .floor,
        .arctan2].find? fun f => (Std.fn f).code = k).bind fun f => fnVal f l)).getD 0
    | _, _ => 0
  add _ := rfl
  mul _ := rfl
  neg _ := rfl
  copy _ := rfl
  int _ := rfl
  cast _ _ := rfl

/-- For every assignment and every numbering of the leaves there is an interpretation that agrees with it. -/
theorem C34_agreeing (ρ : Env F) (leaves : List (Expr F)) : Agrees (exactInterp ρ leaves) ρ leaves where
  leaf k e z h1 h2 := by simp [exactInterp, h1, h2]
  fn f zs z h := by cases f <;> simp [exactInterp, Std.code, h]
  sqrt a z h := by
    simp only [exactInterp, if_true]
    rw [h]; rfl
  powf a b z h := by simp [exactInterp, Std.code, h]
  powi a n z h := by simp [exactInterp, Std.code, h]
  div a b _ := rfl
  condTrue a b := by simp [exactInterp]
  condFalse a b := by simp [exactInterp]
  rel op a b z h := by cases op <;> simp [exactInterp, relCode, h]
  toFloat _ := rfl

/-- `x ** 5 - 2 * y + 1 / y` and the row `(x, y ** (3 / 2))`. -/
noncomputable def lowerExample : List (Nat × Output ℝ) :=
  [(0, .scalar (.add [.pow vx (.int 5), .mul [.int (-2), vy], .pow vy (.int (-1))]) .floating), (1, .matrix 1 2 [vx, .pow vy (.rat ⟨3, 2⟩)])]

theorem lowerExample_runs : ((lowerFunction (ctors codeLic 4) 1 6 Low.empty lowerExample).map fun s => s.listing.ops.map fun o => (o.2.1.op, o.2.1.args)) =
    .ok [(.load (.int 2), []), (.load (.other 0), []), (.load (.int (-1)), []), (.cast 2, [0]), (.cast 2, [2]), (.mul, [1, 3, 4]), (.load (.other 1), []),
      (.mul, [6, 6]), (.mul, [7, 7]), (.mul, [6, 8]), (.load (.int 1), []), (.cast 2, [10]), (.div, [11, 1]), (.add, [5, 9, 12]), (.save 0, [13]),
      (.callStd 14, [1]), (.mul, [15, 15]), (.mul, [15, 16]), (.construct 5, [6, 17]), (.save 1, [18])] := by decide +kernel

/-- A run that gives the same program without any power rule that needs a licence is lawful under every assignment. -/
theorem lawful_of_noLic {nK m n : Nat} {outs : List (Nat × Output F)} {ns : List (Note F)}
    (h1 : (lowerFunction (ctors codeLic nK) m n Low.empty outs).map Low.listing = (lowerFunction (ctors noLic nK) m n Low.empty outs).map Low.listing)
    (h2 : (lowerFunction (ctors codeLic nK) m n Low.empty outs).map (fun s => s.notes) = .ok ns) (ρ : Env F) :
    ∃ s, LawfulLowering ρ nK m n outs s ∧ s.notes = ns := by
  cases h : lowerFunction (ctors codeLic nK) m n Low.empty outs with
  | error e => rw [h] at h2; cases h2
  | ok s =>
    rw [h] at h1 h2
    exact ⟨s, ⟨h, noLic, noLic_true ρ, by rw [← h1]; rfl⟩, by simpa [Except.map] using h2⟩

/-- The example uses no power rule that needs a licence. -/
theorem lowerExample_lawful (ρ : Env ℝ) : ∃ s, LawfulLowering ρ 4 1 6 lowerExample s ∧ s.notes = [.recip vy (.int (-1))] :=
  lawful_of_noLic (by decide +kernel) (by decide +kernel) ρ

/-- The lowered example writes `2 ** 5 - 2 * 4 + 1 / 4` for `x = 2` and `y = 4`, also after the optimisation. -/
example : ∃ (s : Low ℝ) (g : Gen.Graph) (fuel : Nat), lowerFunction (ctors codeLic 4) 1 6 Low.empty lowerExample = .ok s ∧
    s.g.applySimplifications (fun _ _ => none) 2 true fuel = .ok g ∧
    Writes (exactInterp (valuesOf fun n => if n = "x" then 2 else 4) s.leaves) g 0 (32 - 8 + 1 / 4) := by
  obtain ⟨s, h, hn⟩ := lowerExample_lawful (valuesOf fun n => if n = "x" then 2 else 4)
  obtain ⟨N, g, h1, h2⟩ := C34_optimised _ (by intro n i t z hz; cases hz) 4 1 6 lowerExample (by
    intro o ho e he
    simp only [lowerExample, List.mem_cons, List.not_mem_nil, or_false] at ho
    rcases ho with rfl | rfl <;> simp only [Output.exprs, List.mem_cons, List.not_mem_nil, or_false] at he
    · subst he
      exact ⟨by simp [Plain, Over, Overs, Head.plain, Head.interpreted, Head.isLeaf], by simp [Good, Goods, GoodNode, InI64_iff]; decide +kernel⟩
    · rcases he with rfl | rfl
      · exact ⟨by simp [Plain, Over, Overs, Head.plain, Head.interpreted, Head.isLeaf], by simp [Good, Goods, GoodNode]⟩
      · exact ⟨by simp [Plain, Over, Overs, Head.plain, Head.interpreted, Head.isLeaf], by
          refine good_node.2 ⟨trivial, ?_⟩
          simp [Good, Goods, GoodNode, RatC.Canonical, InI64_iff]; decide⟩) s h (by decide) 2 true (fun _ _ => none)
  refine ⟨s, g, N, h.code, h1 N (le_refl _), (h2 ?_ _ (C34_agreeing _ _) (0, _) List.mem_cons_self _ ⟨?_, trivial⟩).1⟩
  · rw [hn]
    refine ⟨?_, by simp⟩
    intro b e hb w h0 hw
    simp only [List.mem_singleton, Note.recip.injEq] at hb
    obtain ⟨rfl, rfl⟩ := hb
    simp [eval, evals, headVal, valuesOf] at h0
  · rw [eval_add]
    simp [eval_mul, eval_pow, eval_int, eval_var, sumO, prodO, powO, powVal]
    rw [Complex.cpow_neg_one]
    norm_num

/-! ## What is rejected -/

/-- Infinity, the imaginary unit, undefined values, unresolved derivatives and substitutions and symbolic functions cannot be lowered. -/
theorem C34_rejects (K : Ctors F) (n : Nat) (s : Low F) (h : Head F) (as : List (Expr F)) (hc : ∀ c ∈ s.cache, identical c.1 (.node h as) = false)
    (hh : (match h with | .zoo | .imag | .undef | .uniq _ _ | .deriv _ | .subst | .symfn _ => true | _ => false) = true) :
    lower K (n + 1) s (.node h as) = .error .type := by
  have hf : s.cache.find? (fun c => identical c.1 (.node h as)) = none := by
    rw [List.find?_eq_none]
    intro c hc'
    simp [hc c hc']
  unfold lower
  rw [hf]
  cases h <;> first | rfl | (cases hh; done)

/-- A product with the factor `INT64_MIN` cannot be lowered: negating the factor overflows. -/
theorem C34_min_factor : lower (ctors codeLic 4) 4 (Low.empty : Low ℝ) (.mul [.int minI, vx]) = .error .arithmetic := by
  have : (lower (ctors codeLic 4) 4 (Low.empty : Low ℝ) (.mul [.int minI, vx])).map (fun p => p.2) = .error .arithmetic := by decide +kernel
  cases h : lower (ctors codeLic 4) 4 (Low.empty : Low ℝ) (.mul [.int minI, vx]) with
  | error e => rw [h] at this; cases this; rfl
  | ok p => rw [h] at this; cases this

end Wf.Sym
