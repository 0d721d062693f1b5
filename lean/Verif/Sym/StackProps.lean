import Verif.Sym.StackLemmas
import Verif.Sym.ArgsProps

/-!
# C78: a sum, product or power does not depend on the stack that is left

Making a sum, product or power calls itself, and a call that has no stack left ends the process. The constructors of the model therefore have a depth
(`ctors lic n`), and end in `.error .terminate` when it is used up. What they return otherwise must not depend on the depth: the same operands then give
the same expression (or the same error) wherever in the program they are combined.
-/

namespace Wf.Sym

variable {F : Type} [DecidableEq F] [FloatSem F]

/-- A call that does not run out of stack. -/
def Ends (x : Res (Expr F)) : Prop := x ≠ .error .terminate

theorem Stack.Below.eq {α : Type} {x y : Res α} (h : Stack.Below x y) (hx : x ≠ .error .terminate) : x = y := h.resolve_left hx

/-- **C78** for more stack. A sum, product or power that ends with depth `n` has the same result, value or error, with every larger depth. -/
theorem C78_more_stack (lic : Lic F) {n m : Nat} (h : n ≤ m) :
    (∀ ts, Ends ((ctors lic n).add ts) → (ctors lic m).add ts = (ctors lic n).add ts) ∧
    (∀ ts, Ends ((ctors lic n).mul ts) → (ctors lic m).mul ts = (ctors lic n).mul ts) ∧
    ∀ b e, Ends ((ctors lic n).pow b e) → (ctors lic m).pow b e = (ctors lic n).pow b e := by
  have hb := Stack.below_ctors (F := F) lic h
  exact ⟨fun ts he => ((hb.add ts).eq he).symm, fun ts he => ((hb.mul ts).eq he).symm, fun b e he => ((hb.pow b e).eq he).symm⟩

/-- **C78** for any two depths. If a sum, product or power ends with both, the results are the same. -/
theorem C78_any_stack (lic : Lic F) (n m : Nat) :
    (∀ ts, Ends ((ctors lic n).add ts) → Ends ((ctors lic m).add ts) → (ctors lic n).add ts = (ctors lic m).add ts) ∧
    (∀ ts, Ends ((ctors lic n).mul ts) → Ends ((ctors lic m).mul ts) → (ctors lic n).mul ts = (ctors lic m).mul ts) ∧
    ∀ b e, Ends ((ctors lic n).pow b e) → Ends ((ctors lic m).pow b e) → (ctors lic n).pow b e = (ctors lic m).pow b e := by
  rcases Nat.le_total n m with h | h
  · have hb := C78_more_stack lic h
    exact ⟨fun ts he _ => (hb.1 ts he).symm, fun ts he _ => (hb.2.1 ts he).symm, fun b e he _ => (hb.2.2 b e he).symm⟩
  · have hb := C78_more_stack lic h
    exact ⟨fun ts _ he => hb.1 ts he, fun ts _ he => hb.2.1 ts he, fun b e _ he => hb.2.2 b e he⟩

theorem ends_ok {x : Res (Expr F)} {r : Expr F} (h : x = .ok r) : Ends x := by rw [h]; exact fun e => nomatch e

/-- The depth at which both calls have ended. -/
theorem at_max (lic : Lic F) {n m : Nat} {ts us : List (Expr F)} {r r' : Expr F} :
    ((ctors lic n).add ts = .ok r → (ctors lic m).add us = .ok r' → (ctors lic (max n m)).add ts = .ok r ∧ (ctors lic (max n m)).add us = .ok r') ∧
    ((ctors lic n).mul ts = .ok r → (ctors lic m).mul us = .ok r' → (ctors lic (max n m)).mul ts = .ok r ∧ (ctors lic (max n m)).mul us = .ok r') := by
  have a := C78_more_stack (F := F) lic (Nat.le_max_left n m)
  have b := C78_more_stack (F := F) lic (Nat.le_max_right n m)
  exact ⟨fun h h' => ⟨(a.1 ts (ends_ok h)).trans h, (b.1 us (ends_ok h')).trans h'⟩,
    fun h h' => ⟨(a.2.1 ts (ends_ok h)).trans h, (b.2.1 us (ends_ok h')).trans h'⟩⟩

/-- **C14** for sums with different stacks: `C14_sum_partial` without the condition that both sums are made at the same depth. -/
theorem C14_sum_any_stack_partial (reg : Registry) (lic : Lic F) (n m : Nat) (ts us : List (Expr F)) (r r' : Expr F) (hp : ts.Perm us)
    (hg : ∀ t ∈ ts, Good t) (hr : ∀ t ∈ ts, t.Regular reg) (hf : ∀ t ∈ ts, NoFloats t) (h : (ctors lic n).add ts = .ok r)
    (h' : (ctors lic m).add us = .ok r') : r = r' :=
  let e := (at_max lic).1 h h'
  C14_sum_partial reg lic _ ts us r r' hp hg hr hf e.1 e.2

/-- **C14** for products with different stacks. -/
theorem C14_product_any_stack_partial (reg : Registry) (lic : Lic F) (n m : Nat) (ts us : List (Expr F)) (r r' : Expr F) (hp : ts.Perm us)
    (hg : ∀ t ∈ ts, Good t) (hr : ∀ t ∈ ts, t.Regular reg) (hf : ∀ t ∈ ts, NoFloats t) (hm : Mergeable (flatMuls ts))
    (hb : ∀ t ∈ flatMuls ts, ∀ b e, factorOf t = some (b, e) → PlainBase b) (h : (ctors lic n).mul ts = .ok r)
    (h' : (ctors lic m).mul us = .ok r') : r = r' :=
  let e := (at_max lic).2 h h'
  C14_product_partial reg lic _ ts us r r' hp hg hr hf hm hb e.1 e.2

/-- **C77** for sums with different stacks: whatever stack is left when the terms are added again, the sum is the same, or the stack is used up. -/
theorem C77_sum_any_stack_partial (reg : Registry) (lic : Lic F) (n m : Nat) (ts us : List (Expr F)) (r : Expr F) (h2 : 2 ≤ ts.length)
    (hg : ∀ t ∈ ts, Good t) (hr : ∀ t ∈ ts, t.Regular reg) (hf : ∀ t ∈ ts, NoFloats t)
    (hm : ∀ t ∈ flatAdds ts, Coeff.ofExpr t = none → PlainRest (asCoeffMul t).2) (h : (ctors lic n).add ts = .ok r) (hsum : r.head = .add)
    (hz : Expr.zoo ∉ r.args ∨ r.args.length ≠ 2) (hu : us.Perm r.args) (he : Ends ((ctors lic m).add us)) : (ctors lic m).add us = .ok r := by
  have h1 := C77_sum_partial reg lic n ts us r h2 hg hr hf hm h hsum hz hu
  exact ((C78_any_stack lic m n).1 us he (ends_ok h1)).trans h1

/-- **C77** for products with different stacks. -/
theorem C77_product_any_stack_partial (reg : Registry) (lic : Lic F) (n m : Nat) (ts us : List (Expr F)) (r : Expr F) (h2 : 2 ≤ ts.length)
    (hg : ∀ t ∈ ts, Good t) (hr : ∀ t ∈ ts, t.Regular reg) (hf : ∀ t ∈ ts, NoFloats t) (hm : Mergeable (flatMuls ts))
    (hb : ∀ t ∈ flatMuls ts, Coeff.ofExpr t = none → PlainFactor t)
    (hs : (∀ t ∈ flatMuls ts, (powerOf t).1.head ≠ .add) ∨ ∀ t ∈ flatMuls ts, Coeff.ofExpr t = none)
    (h : (ctors lic n).mul ts = .ok r) (hprod : r.head = .mul) (hu : us.Perm r.args) (he : Ends ((ctors lic m).mul us)) :
    (ctors lic m).mul us = .ok r := by
  have h1 := C77_product_partial reg lic n ts us r h2 hg hr hf hm hb hs h hprod hu
  exact ((C78_any_stack lic m n).2.1 us he (ends_ok h1)).trans h1

/-! ## Non-vacuity -/

/-- `2 (x + y)` runs out of stack at depth 2, and is `2 x + 2 y` at every depth from 3 on. -/
example : (ctors codeLic 2).mul [.int 2, .add [vx, vy]] = .error .terminate ∧
    ∀ n, 3 ≤ n → (ctors codeLic n).mul [.int 2, .add [vx, vy]] = .ok (.add [.mul [.int 2, vx], .mul [.int 2, vy]]) := by
  refine ⟨by decide +kernel, fun n hn => ?_⟩
  have h : (ctors codeLic 3).mul [.int 2, .add [vx, vy]] = .ok (.add [.mul [.int 2, vx], .mul [.int 2, vy]]) := by decide +kernel
  exact ((C78_more_stack codeLic hn).2.1 _ (ends_ok h)).trans h

/-- `2 ** 64` overflows at every depth from 8 on. -/
example : ∀ n, 8 ≤ n → (ctors codeLic n).pow (.int 2 : Expr ℝ) (.int 64) = .error .arithmetic := by
  intro n hn
  have h : (ctors codeLic 8).pow (.int 2 : Expr ℝ) (.int 64) = .error .arithmetic := by decide +kernel
  exact ((C78_more_stack codeLic hn).2.2 _ _ (by rw [h]; exact fun e => nomatch e)).trans h

end Wf.Sym
