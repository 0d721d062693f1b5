import Verif.Sym.DeferredModel
import Verif.Sym.OrderProps

/-! # C84: `sym.derivative`, the deferred derivative -/

namespace Wf.Sym.Deferred

variable {F : Type} [FloatCmp F] [DecidableEq F] [LawfulFloat F]

/-! ## Specification -/

/-- A variable of any kind, or the invocation of a symbolic function. -/
def IsArgument (x : Expr F) : Prop := x.head.isVar = true ∨ ∃ name, x.head = .symfn name

/-- The expression is not a derivative by `x`. -/
def NotBy (x e : Expr F) : Prop := ∀ g k, e ≠ .deriv g x k

/-- The expression is not a derivative of a derivative by the same argument. -/
def Merged (e : Expr F) : Prop := ∀ f x n, e = .deriv f x n → NotBy x f

/-! ## Lemmas -/

omit [FloatCmp F] [DecidableEq F] [LawfulFloat F] in
theorem accepts_iff (x : Expr F) : accepts x = true ↔ IsArgument x := by
  unfold accepts IsArgument
  split
  · next n h => exact ⟨fun _ => Or.inr ⟨n, h⟩, fun _ => rfl⟩
  · next h => exact ⟨Or.inl, fun e => e.elim id fun ⟨n, hn⟩ => absurd hn (h n)⟩

/-- The derivative of an expression that is not a derivative by the same argument. -/
theorem deferred_new {f x : Expr F} {n : Int} (h1 : 1 ≤ n) (h2 : n ≤ maxInt) (hx : IsArgument x) (hf : NotBy x f) :
    deferred f x n = .ok (.deriv f x n.toNat) := by
  unfold deferred
  rw [if_neg (by simp only [minInt, maxInt] at *; omega), if_neg (by omega), if_neg (by rw [(accepts_iff x).mpr hx]; decide)]
  split
  · next k g y =>
    rw [if_neg]
    intro h
    rw [identical_iff] at h
    subst h
    exact hf g k rfl
  · rfl

/-- The derivative of a derivative by the same argument. -/
theorem deferred_more {g x : Expr F} {k : Nat} {n : Int} (h1 : 1 ≤ n) (h2 : n ≤ maxInt) (hx : IsArgument x) :
    deferred (.deriv g x k) x n = if (k : Int) + n ≤ maxInt then .ok (.deriv g x (k + n.toNat)) else .error .ub := by
  unfold deferred
  rw [if_neg (by simp only [minInt, maxInt] at *; omega), if_neg (by omega), if_neg (by rw [(accepts_iff x).mpr hx]; decide)]
  dsimp only
  rw [if_pos ((identical_iff x x).mpr rfl)]
  by_cases h : (k : Int) + n ≤ maxInt
  · rw [if_pos h, if_neg (by omega)]
  · rw [if_neg h, if_pos (by omega)]

omit [FloatCmp F] [LawfulFloat F] in
theorem by_or (x f : Expr F) : NotBy x f ∨ ∃ g k, f = .deriv g x k := by
  by_cases h : ∃ g k, f = .deriv g x k
  · exact Or.inr h
  · exact Or.inl fun g k e => h ⟨g, k, e⟩

/-! ## C84 -/

/-- What is refused: orders of zero and below, and arguments that are neither variables nor invocations of functions. -/
theorem C84_refused (f x : Expr F) (n : Int) (hn : -2 ^ 31 ≤ n ∧ n < 2 ^ 31) :
    (deferred f x n = .error .invalidArgument ↔ n ≤ 0) ∧ (deferred f x n = .error .type ↔ 0 < n ∧ ¬ IsArgument x) := by
  have hr : ¬ (n < minInt ∨ maxInt < n) := by simp only [minInt, maxInt]; omega
  by_cases h0 : n ≤ 0
  · have : deferred f x n = .error .invalidArgument := by unfold deferred; rw [if_neg hr, if_pos h0]
    rw [this]
    exact ⟨by simp [h0], by simp; omega⟩
  · by_cases hx : IsArgument x
    · have h2 : n ≤ maxInt := by simp only [maxInt]; omega
      rcases by_or x f with hf | ⟨g, k, rfl⟩
      · rw [deferred_new (by omega) h2 hx hf]; simp [h0, hx]
      · rw [deferred_more (by omega) h2 hx]
        split_ifs <;> simp [h0, hx]
    · have ha : accepts x = false := by
        rw [Bool.eq_false_iff]; exact fun h => hx ((accepts_iff x).mp h)
      have : deferred f x n = .error .type := by unfold deferred; rw [if_neg hr, if_neg h0, if_pos ha]
      rw [this]
      exact ⟨by simp; omega, by simp [hx]; omega⟩

/-- Orders add up: a derivative of order `n + m` is the derivative of order `m` of the derivative of order `n`. Missing: sums of orders above
2³¹ - 1, where the combined call is refused by the binding and the two calls are undefined behaviour (`C84_orders_refuted`). -/
theorem C84_orders_add_partial (f x e : Expr F) (n m : Int) (hn : 1 ≤ n) (hm : 1 ≤ m) (h : deferred f x (n + m) = .ok e) :
    ∃ d, deferred f x n = .ok d ∧ deferred d x m = .ok e := by
  have hsum : n + m ≤ maxInt := by
    by_contra hc
    unfold deferred at h
    rw [if_pos (Or.inr (by omega))] at h
    cases h
  have hx : IsArgument x := by
    by_contra hc
    have ha : accepts x = false := by rw [Bool.eq_false_iff]; exact fun h => hc ((accepts_iff x).mp h)
    unfold deferred at h
    rw [if_neg (by simp only [minInt, maxInt] at *; omega), if_neg (by omega), if_pos ha] at h
    cases h
  rcases by_or x f with hf | ⟨g, k, rfl⟩
  · rw [deferred_new (by omega) hsum hx hf] at h
    cases h
    refine ⟨_, deferred_new hn (by omega) hx hf, ?_⟩
    rw [deferred_more hm (by omega) hx, if_pos (by omega), Int.toNat_add (by omega) (by omega)]
  · rw [deferred_more (by omega) hsum hx] at h
    split_ifs at h with hk
    cases h
    refine ⟨_, (deferred_more hn (by omega) hx).trans (if_pos (by omega)), ?_⟩
    rw [deferred_more hm (by omega) hx, if_pos (by omega), Int.toNat_add (by omega) (by omega), Nat.add_assoc]

/-- Derivatives by different arguments stay nested, with both orders. -/
theorem C84_mixed (g x y : Expr F) (k : Nat) (n : Int) (hn : 1 ≤ n) (hn' : n < 2 ^ 31) (hx : IsArgument x) (hxy : identical y x = false) :
    deferred (.deriv g y k) x n = .ok (.deriv (.deriv g y k) x n.toNat) := by
  refine deferred_new hn (by simp only [maxInt]; omega) hx fun g' k' e => ?_
  injection e with _ e
  injection e with _ e
  injection e with e _
  rw [(identical_iff y x).mpr e] at hxy
  cases hxy

/-- No result is a derivative of a derivative by the same argument, if the expression differentiated is not. -/
theorem C84_merged (f x e : Expr F) (n : Int) (hf : Merged f) (h : deferred f x n = .ok e) : Merged e := by
  have hr : ¬ (n < minInt ∨ maxInt < n) := by intro hc; unfold deferred at h; rw [if_pos hc] at h; cases h
  have h0 : ¬ n ≤ 0 := by intro hc; unfold deferred at h; rw [if_neg hr, if_pos hc] at h; cases h
  have hx : IsArgument x := by
    by_contra hc
    have ha : accepts x = false := by rw [Bool.eq_false_iff]; exact fun h => hc ((accepts_iff x).mp h)
    unfold deferred at h; rw [if_neg hr, if_neg h0, if_pos ha] at h; cases h
  rcases by_or x f with hb | ⟨g, k, rfl⟩
  · rw [deferred_new (by omega) (by omega) hx hb] at h
    cases h
    intro f' x' n' e
    cases e
    exact hb
  · rw [deferred_more (by omega) (by omega) hx] at h
    split_ifs at h
    cases h
    intro f' x' n' e
    cases e
    exact hf g x k rfl

/-- Differentiating once more a derivative of the largest order is undefined behaviour: the orders are added as `int`. -/
theorem C84_orders_refuted (f x : Expr F) (hx : IsArgument x) (hf : NotBy x f) :
    ∃ d, deferred f x (2 ^ 31 - 1) = .ok d ∧ deferred d x 1 = .error .ub := by
  refine ⟨_, deferred_new (by decide) (by decide) hx hf, ?_⟩
  rw [deferred_more (by decide) (by decide) hx, if_neg (by decide)]

/-- The constructor that the other properties of derivatives use (`derivCreate`) makes the same expressions. -/
theorem deferred_eq_derivCreate {F : Type} [FnOps F] [DecidableEq F] [LawfulFloat F] (f x e : Expr F) (n : Int) (h : deferred f x n = .ok e) : derivCreate f x n.toNat = .ok e := by
  have hr : ¬ (n < minInt ∨ maxInt < n) := by intro hc; unfold deferred at h; rw [if_pos hc] at h; cases h
  have h0 : ¬ n ≤ 0 := by intro hc; unfold deferred at h; rw [if_neg hr, if_pos hc] at h; cases h
  have hx : IsArgument x := by
    by_contra hc
    have ha : accepts x = false := by rw [Bool.eq_false_iff]; exact fun h => hc ((accepts_iff x).mp h)
    unfold deferred at h; rw [if_neg hr, if_neg h0, if_pos ha] at h; cases h
  have hd : derivCreate f x n.toNat = derivCreate.derivNode f x n.toNat := by
    unfold derivCreate
    rw [if_neg (by omega)]
    rcases hx with hx | ⟨name, hx⟩
    · rw [hx]
    · rw [hx]; rfl
  rw [hd]
  unfold deferred at h
  rw [if_neg hr, if_neg h0, if_neg (by rw [(accepts_iff x).mpr hx]; decide)] at h
  unfold derivCreate.derivNode
  split at h
  · next k g y =>
    dsimp only
    split_ifs at h with h1 h2
    · rw [if_pos h1]; exact h
    · rw [if_neg h1]; exact h
  · next hne =>
    split
    · next k g y => exact absurd rfl (hne k g y)
    · exact h

/-! ## Non-vacuity -/

omit [FloatCmp F] [DecidableEq F] [LawfulFloat F]

/-- The derivative of `f(x)` by `x`, twice, and then by `y`. -/
example : deferred (F := Int) (.symfn "f" [.var "x" .real]) (.var "x" .real) 2 =
      .ok (.deriv (.symfn "f" [.var "x" .real]) (.var "x" .real) 2) ∧
    deferred (F := Int) (.deriv (.symfn "f" [.var "x" .real]) (.var "x" .real) 2) (.var "x" .real) 3 =
      .ok (.deriv (.symfn "f" [.var "x" .real]) (.var "x" .real) 5) ∧
    deferred (F := Int) (.int 3) (.int 4) 1 = .error .type ∧ deferred (F := Int) (.int 3) (.int 4) 0 = .error .invalidArgument := by
  decide +kernel

example : IsArgument (F := Int) (.var "x" .real) ∧ NotBy (F := Int) (.var "x" .real) (.symfn "f" [.var "x" .real]) ∧
    Merged (F := Int) (.symfn "f" [.var "x" .real]) ∧ identical (F := Int) (.var "y" .real) (.var "x" .real) = false := by
  refine ⟨Or.inl rfl, fun g k e => ?_, fun f x n e => ?_, by decide +kernel⟩
  · cases e
  · cases e

end Wf.Sym.Deferred
