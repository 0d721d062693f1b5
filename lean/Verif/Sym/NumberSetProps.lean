import Verif.Sym.NumberSetLemmas
import Verif.Sym.ValueProps

/-! # Property C21: number sets -/

namespace Wf.Sym
open Complex

variable {F : Type} [DecidableEq F] [FloatSem F]

/-- **C21**, part. The value of an expression lies in the set it is classified in, for every assignment that respects the declared sets, provided
that the logarithms of positive arguments are taken of numbers above one, and that a power of a base classified as real has a non-negative base
or an integer exponent. (Without these two provisos it does not hold: `C21_log`, `C21_power`.) -/
theorem C21_sound_partial (ρ : Env F) (hρ : ρ.Respects) (e : Expr F) (hg : Good e) (ht : Tame ρ e) (z : ℂ) (hz : eval ρ e = some z) :
    (numberSet e).Mem z := numberSet_mem hρ e hg ht z hz

/-- A node to which the classification rules apply correctly under every assignment. -/
def SimpleNode : Head F → List (Expr F) → Prop
  | .fn .log, [x] => numberSet x ≠ .positive
  | .pow, [b, e] => numberSet b ≠ .real ∨ isIntConst e = true
  | .iverson, [.node (.bconst _) _] => True
  | .iverson, [.node (.rel _) _] => True
  | .iverson, _ => False
  | .elem _, .node (.construct _) _ :: _ => False
  | _, _ => True

mutual
/-- Every node is simple. -/
def Simple : Expr F → Prop
  | .node h as => SimpleNode h as ∧ Simples as
def Simples : List (Expr F) → Prop
  | [] => True
  | a :: as => Simple a ∧ Simples as
end

mutual
theorem tame_of_simple (ρ : Env F) : ∀ e : Expr F, Simple e → Tame ρ e
  | .node h as => by
    rw [Simple, Tame]
    rintro ⟨hn, hs⟩
    refine ⟨?_, tames_of_simples ρ as hs⟩
    unfold SimpleNode at hn
    split at hn
    · exact fun h => absurd h hn
    · rename_i b e
      intro hb x y _ hy
      rcases hn with hn | hn
      · exact absurd hb hn
      · right
        unfold isIntConst at hn
        split at hn
        · rename_i n
          rw [eval_int] at hy
          cases hy
          exact ⟨n, rfl⟩
        · cases hn
    · trivial
    · trivial
    · exact hn.elim
    · exact hn.elim
    · unfold TameNode
      split <;> simp_all
      rename_i h
      exact h _ _ _ _ rfl rfl rfl rfl
theorem tames_of_simples (ρ : Env F) : ∀ es : List (Expr F), Simples es → Tames ρ es
  | [] => by simp [Tames]
  | a :: as => by
    rw [Simples, Tames]
    exact fun h => ⟨tame_of_simple ρ a h.1, tames_of_simples ρ as h.2⟩
end

/-- **C21** on a class of expressions: without a logarithm of an argument classified as positive, and without a power of a base classified as real
other than to a constant integer, the value always lies in the set. -/
theorem C21_sound_plain (ρ : Env F) (hρ : ρ.Respects) (e : Expr F) (hg : Good e) (hp : Simple e) (z : ℂ) (hz : eval ρ e = some z) :
    (numberSet e).Mem z := numberSet_mem hρ e hg (tame_of_simple ρ e hp) z hz

/-- `log(x)` is classified as positive for positive `x`, but `log(1/e)` is minus one. -/
theorem C21_log : numberSet (.fn .log [vx] : Expr ℝ) = .positive ∧
    ∃ ρ : Env ℝ, ρ.Respects ∧ Good (.fn .log [vx] : Expr ℝ) ∧ eval ρ (.fn .log [vx]) = some (-1) ∧ ¬ NSet.Mem .positive (-1) := by
  refine ⟨by decide +kernel, ⟨fun h => match h with | .var "x" .positive => some (Complex.exp (-1)) | _ => none, fun _ _ => none, fun _ _ => none⟩,
    ⟨?_, ?_, ?_, ?_⟩, good_fn.2 (by simp [good_var]), ?_, ?_⟩
  · intro n s z h
    dsimp only at h
    split at h
    · rename_i heq
      cases heq; cases h
      rw [show (-1 : ℂ) = ((-1 : ℝ) : ℂ) by norm_num, ← Complex.ofReal_exp]
      exact ⟨Complex.ofReal_im _, by rw [Complex.ofReal_re]; exact Real.exp_pos _⟩
    · cases h
  · intro i s z h; cases h
  · intro n i t z h; cases h
  · intro i as z h; cases h
  · rw [eval_log]
    show (if Complex.exp (-1) = 0 then none else some (log (Complex.exp (-1)))) = _
    rw [if_neg (Complex.exp_ne_zero _), log_exp_neg_one]
  · simp only [NSet.Mem, neg_re, one_re]; norm_num

/-- `y ** (1/2)` is classified as real for real `y`, but `(-1) ** (1/2)` is the imaginary unit. -/
theorem C21_power : numberSet (.pow vy half : Expr ℝ) = .real ∧
    ∃ ρ : Env ℝ, ρ.Respects ∧ Good (.pow vy half : Expr ℝ) ∧ eval ρ (.pow vy half) = some I ∧ ¬ NSet.Mem .real I := by
  refine ⟨by decide +kernel, ⟨fun h => match h with | .var "y" .real => some (-1) | _ => none, fun _ _ => none, fun _ _ => none⟩,
    ⟨?_, ?_, ?_, ?_⟩, good_pow.2 ⟨good_var _ _, good_half⟩, ?_, ?_⟩
  · intro n s z h
    dsimp only at h
    split at h
    · rename_i heq
      cases heq; cases h
      simp [NSet.Mem]
    · cases h
  · intro i s z h; cases h
  · intro n i t z h; cases h
  · intro i as z h; cases h
  · rw [eval_pow, eval_half]
    show powO (some (-1)) _ = _
    rw [powO_some, powVal_of_ne' (by norm_num) neg_one_half]
  · simp [NSet.Mem]

/-! ## Non-vacuity -/

/-- `x ** z + |y| cosh(z)`: positive. -/
def sampleSet : Expr ℝ := .add [.pow vx vz, .mul [.fn .abs [vy], .fn .cosh [vz]], .int 1]

example : numberSet sampleSet = .real ∧ numberSet (.add [.mul [.fn .abs [vy], .fn .cosh [vz]], .int 1] : Expr ℝ) = .positive := by decide +kernel

example : Simple sampleSet ∧ Good sampleSet := by
  constructor
  · simp [sampleSet, Simple, Simples, SimpleNode, numberSet]
  · unfold sampleSet
    rw [good_add]
    simp only [List.mem_cons, List.not_mem_nil, or_false, forall_eq_or_imp, forall_eq]
    refine ⟨good_pow.2 ⟨good_var _ _, good_var _ _⟩, good_mul.2 ⟨by decide, ?_⟩, good_one⟩
    simp only [List.mem_cons, List.not_mem_nil, or_false, forall_eq_or_imp, forall_eq]
    exact ⟨good_fn.2 (by simp [good_var]), good_fn.2 (by simp [good_var])⟩

end Wf.Sym
