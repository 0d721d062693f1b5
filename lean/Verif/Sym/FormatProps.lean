import Verif.Sym.FormatLemmas
import Verif.Sym.ValueProps

/-! # Property C42: the plain text of an expression denotes its value -/

namespace Wf.Sym.Plain
open Complex

/-- The plain text of an expression is read in one way. Wherever the expression has a value, the text has the same value, unless reading it divides
by zero or raises zero to a power that has no value. `S` is the set of assignments at which the power rules used for printing are laws; `D` is the
meaning of the names.

Full statement: the text has the value of the expression everywhere. Missing: the points where the text has a pole and the expression has none
(`C42_pole`), names used for two things (`C42_same_name`), and texts that contain `/1/`, which only expressions with a reciprocal as the base of a
reciprocal have. -/
theorem C42_text_partial {F : Type} [DecidableEq F] [FnSem F] {D : Names F} {S : Env F → Prop} {m n : Nat} {e : Expr F} {ts : Toks F} (hD : D.Usual)
    (hg : Good e) (hk : Over D.Knows e) (h : LawfulRunOn S m (fun _ K => plainText K n e) ts) (hu : ¬ [.slash, .int 1, .slash] <:+: ts) :
    ∃ t, ReadsAs ts t ∧ ∀ ρ, S ρ → ∀ z, eval ρ e = some z → t.val D ρ = .val z ∨ t.val D ρ = .pole := by
  obtain ⟨lic, hS, hrun⟩ := h.lawful
  obtain ⟨t, r, _, hm⟩ := plainText_ok hD (ctors_neg D m hS) n e ts hg hk hrun hu
  have r0 := r.down (k := 0) (by omega) (lvl_le e)
  exact ⟨t, ⟨r0, fun e' h' => Reads.unique r0 h'⟩, hm⟩

/-- No text is read in two ways. -/
theorem C42_one_reading {F : Type} {ts : Toks F} {t t' : T F} (h : Reads 0 ts t) (h' : Reads 0 ts t') : t' = t := Reads.unique h h'

/-! ## Cases -/

/-- The names in the examples. -/
def exLeaf (s : String) : Option (Head ℝ) :=
  ([.const .euler, .const .pi, .imag, .zoo, .undef, .bconst true, .bconst false, .var "x" .positive, .var "y" .real, .var "z" .real] : List (Head ℝ)).find?
    (fun h => leafText h == s)

def allBuiltIn : List BuiltIn :=
  [.cos, .sin, .tan, .arccos, .arcsin, .arctan, .cosh, .sinh, .tanh, .arccosh, .arcsinh, .arctanh, .exp, .log, .abs, .signum, .floor, .arctan2]

def exCallee (s : String) : Option Callee :=
  if s = "where" then some .choice
  else if s = "iverson" ∨ s = "StopDerivative" then some .same
  else (allBuiltIn.find? (fun f => f.name == s)).map .builtIn

noncomputable def exNames : Names ℝ := ⟨exLeaf, exCallee⟩

theorem exNames_usual : exNames.Usual where
  builtIn f := by cases f <;> rfl
  choice := rfl
  iverson := rfl
  stop := rfl
  leaf h hh := by
    rcases hh with ⟨c, rfl⟩ | ⟨b, rfl⟩ | rfl | rfl | rfl
    · cases c <;> rfl
    · cases b <;> rfl
    · rfl
    · rfl
    · rfl

abbrev px : Expr ℝ := .var "x" .positive
abbrev py : Expr ℝ := .var "y" .real
abbrev pz : Expr ℝ := .var "z" .real

/-- `-2 * x / y + z ** 2` -/
abbrev exSum : Expr ℝ := .add [.mul [.pow py (.int (-1)), .int (-2), px], .pow pz (.int 2)]

theorem exSum_good : Good exSum := by
  refine good_add.2 ?_
  simp only [List.mem_cons, List.not_mem_nil, or_false, forall_eq_or_imp, forall_eq]
  refine ⟨good_mul.2 ⟨by decide, ?_⟩, good_pow.2 ⟨by simp [Good, Goods, GoodNode], good_node.2 ⟨inI64_small (by omega) (by omega), by simp⟩⟩⟩
  simp only [List.mem_cons, List.not_mem_nil, or_false, forall_eq_or_imp, forall_eq]
  exact ⟨good_pow.2 ⟨by simp [Good, Goods, GoodNode], good_negOne⟩, good_node.2 ⟨inI64_small (by omega) (by omega), by simp⟩, by simp [Good, Goods, GoodNode]⟩

theorem exSum_known : Over exNames.Knows exSum := by
  simp only [Over, Overs, Names.Knows, and_true, true_and]
  exact ⟨⟨rfl, rfl⟩, rfl⟩

example : ∃ t, ReadsAs ([.minus, .int 2, .star, .name "x", .slash, .name "y", .plus, .name "z", .dstar, .int 2] : Toks ℝ) t ∧
    ∀ ρ z, eval ρ exSum = some z → t.val exNames ρ = .val z ∨ t.val exNames ρ = .pole := by
  have hrun : LawfulRunOn (fun _ : Env ℝ => True) 8 (fun _ K => plainText K 8 exSum)
      [.minus, .int 2, .star, .name "x", .slash, .name "y", .plus, .name "z", .dstar, .int 2] :=
    ⟨by decide +kernel, noLic, fun ρ _ => noLic_true ρ, by decide +kernel⟩
  obtain ⟨t, h1, h2⟩ := C42_text_partial exNames_usual exSum_good exSum_known hrun (by decide)
  exact ⟨t, h1, fun ρ z => h2 ρ trivial z⟩

/-- The expression in the example is what the constructor of sums returns. -/
example : (ctors codeLic 8).add [.mul [.pow py (.int (-1)), .int (-2), px], .pow pz (.int 2)] = .ok exSum := by decide +kernel

/-! ## Where the text differs from the expression -/

/-- The expression `z * x ** (-y)` is written `z/x**y`. For `x = 0`, `y = -1` the expression is `z * 0 ** 1 = 0`, but the text divides by `0 ** (-1)`. -/
theorem C42_pole :
    (ctors codeLic 8).mul [pz, .pow px (.mul [.int (-1), py])] = .ok (.mul [pz, .pow px (.mul [.int (-1), py])]) ∧
    plainText (ctors codeLic 8) 8 (.mul [pz, .pow px (.mul [.int (-1), py])]) = .ok [.name "z", .slash, .name "x", .dstar, .name "y"] ∧
    ReadsAs ([.name "z", .slash, .name "x", .dstar, .name "y"] : Toks ℝ) (.bin .div (.name "z") (.bin .pow (.name "x") (.name "y"))) ∧
    ∃ ρ : Env ℝ, eval ρ (.mul [pz, .pow px (.mul [.int (-1), py])]) = some 0 ∧
      (T.bin .div (.name "z") (.bin .pow (.name "x") (.name "y"))).val exNames ρ = .pole := by
  refine ⟨by decide +kernel, by decide +kernel, ?_, ?_⟩
  · have r : Reads 0 ([.name "z", .slash, .name "x", .dstar, .name "y"] : Toks ℝ) (.bin .div (.name "z") (.bin .pow (.name "x") (.name "y"))) :=
      (Reads.bin (op := .div) (l := [.name "z"]) (Reads.name.down (by decide) (by omega))
        ((Reads.bin (op := .pow) (l := [.name "x"]) Reads.name (Reads.name.down (by decide) (by omega))).down (by decide) (by decide))).down (by omega) (by decide)
    exact ⟨r, fun e' h' => Reads.unique r h'⟩
  · let ρ : Env ℝ := ⟨fun h => match h with | .var "x" _ => some 0 | .var "y" _ => some (-1) | .var "z" _ => some 2 | _ => none, fun _ _ => none, fun _ _ => none⟩
    have hx : eval ρ px = some 0 := by rw [eval]; rfl
    have hy : eval ρ py = some (-1) := by rw [eval]; rfl
    have hz : eval ρ pz = some 2 := by rw [eval]; rfl
    refine ⟨ρ, ?_, ?_⟩
    · simp only [eval_mul, List.map_cons, List.map_nil, eval_pow, eval_int, hx, hy, hz]
      simp [prodO, mulO, powO, powVal]
    · have vx : (T.name "x").val exNames ρ = .val 0 := by
        rw [T.val]; change Out.ofOption (eval ρ px) = _; rw [hx]; rfl
      have vy : (T.name "y").val exNames ρ = .val (-1) := by
        rw [T.val]; change Out.ofOption (eval ρ py) = _; rw [hy]; rfl
      have vz : (T.name "z").val exNames ρ = .val 2 := by
        rw [T.val]; change Out.ofOption (eval ρ pz) = _; rw [hz]; rfl
      have hp : powVal 0 (-1) = none := by
        rw [powVal, if_pos rfl, if_neg]
        simp only [neg_re, one_re]
        norm_num
      rw [T.val, vz, T.val, vx, vy]
      simp only [binOut, Out.bind, binVal, hp]

/-- Two different variables with the same name have the same text, but may have different values. -/
theorem C42_same_name : ∃ a b : Expr ℝ, a ≠ b ∧ (∀ K n, plainText K (n + 1) a = plainText K (n + 1) b) ∧ ∃ ρ, eval ρ a = some 1 ∧ eval ρ b = some 2 := by
  refine ⟨.var "x" .positive, .var "x" .real, by decide, fun K n => rfl,
    ⟨fun h => match h with | .var _ .positive => some 1 | .var _ .real => some 2 | _ => none, fun _ _ => none, fun _ _ => none⟩, ?_, ?_⟩
  · rw [eval]; rfl
  · rw [eval]; rfl

/-- A sum with the least integer has no text: negating the integer overflows. -/
theorem C42_least_integer :
    (ctors codeLic 8).add [px, .int minI] = .ok (.add [.int minI, px]) ∧ plainText (ctors codeLic 8) 8 (.add [.int minI, px]) = .error .arithmetic := by
  decide +kernel

end Wf.Sym.Plain
