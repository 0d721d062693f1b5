import Verif.Sym.StackSubsLemmas
import Verif.Sym.StackProps
import Verif.Sym.DerivativeProps

/-!
# C78 for functions, derivatives and substitution

The built-in functions, `diff` and `subs` make their results with the constructors, and call themselves. Each of these has a stack of its own in the model
(`k` for the constructors, `m` for the functions, `n` for the visitor). The result depends on none of them.
-/

namespace Wf.Sym

variable {F : Type} [DecidableEq F] [FnSem F]

namespace Stack

/-- Two results that both lie below a third are the same if neither is out of stack. -/
theorem Below.agree {α : Type} {x y z : Res α} (hx : Below x z) (hy : Below y z) (ex : x ≠ .error .terminate) (ey : y ≠ .error .terminate) : x = y :=
  (hx.eq ex).trans (hy.eq ey).symm

/-- The visitor of `diff` with more stack. -/
theorem belowD (lic : Lic F) {k k' m m' : Nat} (hk : k ≤ k') (hm : m ≤ m') (v : Expr F) (beh : NonDiff) (other : Expr F → List (Expr F) → Res (Expr F)) :
    BelowD ⟨ctors lic k, m, v, beh, other⟩ ⟨ctors lic k', m', v, beh, other⟩ :=
  ⟨below_ctors lic hk, hm, rfl, rfl, fun _ _ => .refl _⟩

end Stack

open Stack

/-- **C78** for functions. A built-in function of one argument, and `atan2`, give the same result, value or error, with any two stacks with which they
end. -/
theorem C78_functions (lic : Lic F) (k k' m m' : Nat) :
    (∀ f x, Ends (fns (ctors lic k) m f x) → Ends (fns (ctors lic k') m' f x) → fns (ctors lic k) m f x = fns (ctors lic k') m' f x) ∧
    ∀ y x, Ends (atan2Fn (ctors lic k) y x) → Ends (atan2Fn (ctors lic k') y x) → atan2Fn (ctors lic k) y x = atan2Fn (ctors lic k') y x := by
  have h := below_ctors (F := F) lic (Nat.le_max_left k k')
  have h' := below_ctors (F := F) lic (Nat.le_max_right k k')
  exact ⟨fun f x => (below_fns h (Nat.le_max_left m m') f x).agree (below_fns h' (Nat.le_max_right m m') f x),
    fun y x => (below_atan2Fn h y x).agree (below_atan2Fn h' y x)⟩

/-- **C78** for derivatives, repeated any number of times. -/
theorem C78_diff (lic : Lic F) (k k' m m' : Nat) (v : Expr F) (beh : NonDiff) (other : Expr F → List (Expr F) → Res (Expr F)) (e : Expr F) (reps : Int)
    (h : Ends (diff ⟨ctors lic k, m, v, beh, other⟩ e reps)) (h' : Ends (diff ⟨ctors lic k', m', v, beh, other⟩ e reps)) :
    diff ⟨ctors lic k, m, v, beh, other⟩ e reps = diff ⟨ctors lic k', m', v, beh, other⟩ e reps :=
  (below_diff (belowD lic (Nat.le_max_left k k') (Nat.le_max_left m m') v beh other) e reps).agree
    (below_diff (belowD lic (Nat.le_max_right k k') (Nat.le_max_right m m') v beh other) e reps) h h'

/-- **C78** for substitution of any number of pairs. -/
theorem C78_subs (lic : Lic F) (k k' m m' n n' : Nat) (force : Bool) (e : Expr F) (pairs : List (Expr F × Expr F))
    (h : Ends (substAny (ctors lic k) lic m n force e pairs)) (h' : Ends (substAny (ctors lic k') lic m' n' force e pairs)) :
    substAny (ctors lic k) lic m n force e pairs = substAny (ctors lic k') lic m' n' force e pairs :=
  (below_substAny (below_ctors lic (Nat.le_max_left k k')) lic (Nat.le_max_left m m') (Nat.le_max_left n n') force e pairs).agree
    (below_substAny (below_ctors lic (Nat.le_max_right k k')) lic (Nat.le_max_right m m') (Nat.le_max_right n n') force e pairs) h h'

/-! ## Non-vacuity -/

/-- The derivative of `cos (x y)` by `x` runs out of stack at depth 1, and is `-y sin (x y)` with every stack with which it ends. -/
example : diff ⟨ctors codeLic 1, 1, vx, .constant, fun _ _ => .error .assertion⟩ (.fn .cos [.mul [vx, vy]]) 1 = .error .terminate ∧
    ∀ k m, Ends (diff ⟨ctors codeLic k, m, vx, .constant, fun _ _ => .error .assertion⟩ (.fn .cos [.mul [vx, vy]]) 1) →
      diff ⟨ctors codeLic k, m, vx, .constant, fun _ _ => .error .assertion⟩ (.fn .cos [.mul [vx, vy]]) 1 =
        .ok (.mul [.fn .sin [.mul [vx, vy]], .int (-1), vy]) := by
  refine ⟨by decide +kernel, fun k m h => ?_⟩
  have h8 : diff ⟨ctors codeLic 8, 3, vx, .constant, fun _ _ => .error .assertion⟩ (.fn .cos [.mul [vx, vy]]) 1 =
      .ok (.mul [.fn .sin [.mul [vx, vy]], .int (-1), vy]) := by decide +kernel
  exact (C78_diff codeLic k 8 m 3 vx .constant _ _ 1 h (ends_ok h8)).trans h8

/-- Replacing `x + y` in `x + y + 3` by `z` gives `3 + z` with every stack with which it ends. -/
example (k m n : Nat) (h : Ends (substAny (ctors codeLic k) codeLic m n false (.add [.int 3, vx, vy]) [(.add [vx, vy], vz)])) :
    substAny (ctors codeLic k) codeLic m n false (.add [.int 3, vx, vy]) [(.add [vx, vy], vz)] = .ok (.add [.int 3, vz]) := by
  have h8 : substAny (ctors codeLic 8) codeLic 3 8 false (.add [.int 3, vx, vy]) [(.add [vx, vy], vz)] =
      .ok (.add [.int 3, vz]) := by decide +kernel
  exact (C78_subs codeLic k 8 m 3 n 8 false _ _ h (ends_ok h8)).trans h8

/-- `cos (-2 x)` is `cos (2 x)` with every stack with which it ends. -/
example (k m : Nat) (h : Ends (fns (ctors codeLic k) m .cos (.mul [.int (-2), vx]))) :
    fns (ctors codeLic k) m .cos (.mul [.int (-2), vx]) = .ok (.fn .cos [.mul [.int 2, vx]]) := by
  have h8 : fns (ctors codeLic 8) 3 .cos (.mul [.int (-2), vx]) = .ok (.fn .cos [.mul [.int 2, vx]]) := by decide +kernel
  exact ((C78_functions codeLic k 8 m 3).1 _ _ h (ends_ok h8)).trans h8

end Wf.Sym
