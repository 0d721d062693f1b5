import Verif.Sym.OrderLemmas2

/-! # C10, C11: the canonical order and the hash of expressions -/

namespace Wf.Sym

variable {F : Type}

/-! ## C10 -/

/-- On expressions whose custom types and external functions are identified by their names, and with well behaved floating point constants:
the order says "equal" exactly for identical expressions; swapping the arguments swaps the answer (and fails in the same cases);
"less" is transitive. Missing: comparisons of rational constants may overflow and end the process (`C10_overflow_terminates`); the statement
is false for two different types of the same name (`C10_same_name_types`) and in the presence of not-a-number constants (`C10_nan_constants`). -/
theorem C10_total_order_partial [FloatCmp F] [DecidableEq F] [LawfulFloat F] (reg : Registry) (a b c : Expr F)
    (ha : a.Regular reg) (hb : b.Regular reg) (hc : c.Regular reg) :
    (order a b = .ok .eq ↔ identical a b = true) ∧
    (order b a = (order a b).map Ordering.swap) ∧
    (order a b = .ok .lt → order b c = .ok .lt → ∀ o, order a c = .ok o → o = .lt) := by
  refine ⟨⟨fun h => ?_, fun h => ?_⟩, order_swap reg a b ha hb, fun h1 h2 o h3 => ?_⟩
  · exact (identical_iff a b).mpr ((cmpE_eq_iff reg a b ha hb).mp (order_exact reg a b ha hb _ h))
  · rw [← (identical_iff a b).mp h]; exact order_self reg a ha
  · have e1 := order_exact reg a b ha hb _ h1
    have e2 := order_exact reg b c hb hc _ h2
    have e3 := order_exact reg a c ha hc _ h3
    rw [← e3]; exact cmpE_trans reg a b c ha hb hc e1 e2

/-- When the rational constants have numerators and denominators below 2³¹ every two expressions compare. -/
theorem C10_always_comparable [FloatCmp F] (a b : Expr F)
    (ha : a.All fun h => ∀ r, h = .rat r → r.Canonical ∧ |r.n| ≤ 2 ^ 31 ∧ r.d ≤ 2 ^ 31)
    (hb : b.All fun h => ∀ r, h = .rat r → r.Canonical ∧ |r.n| ≤ 2 ^ 31 ∧ r.d ≤ 2 ^ 31) : ∃ o, order a b = .ok o := by
  refine order_total _ ?_ a b ha hb
  rintro r s ⟨hr, hr1, hr2⟩ ⟨hs, hs1, hs2⟩
  rw [C06_order_partial r s hr hs]
  have key : ∀ n d : ℤ, |n| ≤ 2 ^ 31 → 0 < d → d ≤ 2 ^ 31 → InI64 (n * d) := by
    intro n d h1 h2 h3
    have hb : |n * d| ≤ 2 ^ 31 * 2 ^ 31 := by
      rw [abs_mul, abs_of_pos h2]; exact mul_le_mul h1 h3 h2.le (by norm_num)
    have := abs_le.mp hb
    unfold InI64 minI maxI
    constructor <;> omega
  rw [if_pos (Or.inr ⟨key _ _ hr1 hs.2.2.1 hs2, key _ _ hs1 hr.2.2.1 hr2⟩)]
  exact ⟨_, rfl⟩

/-- The order with comparisons of rational constants carried out exactly is a strict total order, total in every case. -/
theorem C10_exact_total_order [FloatCmp F] [DecidableEq F] [LawfulFloat F] (reg : Registry) (a b c : Expr F)
    (ha : a.Regular reg) (hb : b.Regular reg) (hc : c.Regular reg) :
    (exactOrder a b = .eq ↔ identical a b = true) ∧ exactOrder b a = (exactOrder a b).swap ∧
    (exactOrder a b = .lt → exactOrder b c = .lt → exactOrder a c = .lt) ∧
    (∀ o, order a b = .ok o → exactOrder a b = o) := by
  simp only [exactOrder_eq]
  exact ⟨(cmpE_eq_iff reg a b ha hb).trans (identical_iff a b).symm, cmpE_swap reg a b ha hb, cmpE_trans reg a b c ha hb hc,
    order_exact reg a b ha hb⟩

/-- Identity is reflexive, symmetric and transitive, and means that the trees are the same. -/
theorem C10_identity_is_equality [FloatCmp F] [DecidableEq F] [LawfulFloat F] (a b : Expr F) : identical a b = true ↔ a = b :=
  identical_iff a b

/-! ### What goes wrong -/

/-- Floating point constants with a not-a-number, two zeros and the other integers. -/
inductive Ieee
  | nan | negZero | num (n : Int)
deriving DecidableEq, Repr

/-- The number stored, if it is one. -/
def Ieee.value : Ieee → Option Int
  | .nan => none
  | .negZero => some 0
  | .num n => some n

instance : FloatCmp Ieee where
  eq a b := match a.value, b.value with
    | some x, some y => decide (x = y)
    | _, _ => false
  lt a b := match a.value, b.value with
    | some x, some y => decide (x < y)
    | _, _ => false
  bits
    | .nan => 0x7ff8000000000000
    | .negZero => 0x8000000000000000
    | .num n => UInt64.ofInt n

/-- A not-a-number constant orders equal to every number, so "equal" is neither identity nor transitive. -/
theorem C10_nan_constants :
    order (F := Ieee) (.flt .nan) (.flt (.num 1)) = .ok .eq ∧ order (F := Ieee) (.flt .nan) (.flt (.num 2)) = .ok .eq ∧
    order (F := Ieee) (.flt (.num 1)) (.flt (.num 2)) = .ok .lt ∧ identical (F := Ieee) (.flt .nan) (.flt (.num 1)) = false := by
  decide

/-- Two different custom types of the same name: two arguments of these types order equal without being identical. -/
theorem C10_same_name_types : ∃ t u : CType, t.name = u.name ∧
    order (F := Ieee) (.node (.typeArg "p" t) []) (.node (.typeArg "p" u) []) = .ok .eq ∧
    identical (F := Ieee) (.node (.typeArg "p" t) []) (.node (.typeArg "p" u) []) = false :=
  ⟨⟨"Point", .nil, 0⟩, ⟨"Point", .nil, 1⟩, rfl, by decide, by decide⟩

/-- Two external functions of the same name and different return types: their invocations order equal without being identical. -/
theorem C10_same_name_functions : ∃ f g : ExtFn, f.name = g.name ∧
    order (F := Ieee) (.node (.call f) []) (.node (.call g) []) = .ok .eq ∧
    identical (F := Ieee) (.node (.call f) []) (.node (.call g) []) = false :=
  ⟨⟨"f", [], .scalar .floating⟩, ⟨"f", [], .scalar .integral⟩, rfl, by decide, by decide⟩

/-- Comparing two rational constants in lowest terms can end the process. -/
theorem C10_overflow_terminates : ∃ r s : RatC, r.Canonical ∧ s.Canonical ∧
    order (F := Ieee) (.rat r) (.rat s) = .error .terminate :=
  ⟨⟨9223372036854775807, 2⟩, ⟨9223372036854775807, 5⟩, by refine ⟨?_, ?_, ?_, ?_⟩ <;> decide,
    by refine ⟨?_, ?_, ?_, ?_⟩ <;> decide, by decide⟩

/-! ## C11 -/

/-- Identical expressions have equal hashes, provided equal floating point constants have equal bits. Missing: zero and negative zero
(`C11_signed_zero`). -/
theorem C11_identical_same_hash_partial [FloatCmp F] [DecidableEq F]
    (bits : ∀ a b : F, FloatCmp.eq a b = true → FloatCmp.bits a = FloatCmp.bits b) (a b : Expr F) (h : identical a b = true) :
    hash a = hash b := (hash_eq bits a b h).1

/-- An expression without floating point constants has the same hash as any identical expression, whatever the floating point type. -/
theorem C11_no_floats [FloatCmp F] [DecidableEq F] (a b : Expr F) (ha : a.All fun h => ∀ f, h ≠ .flt f) (h : identical a b = true) :
    hash a = hash b := by
  have key : a = b := by
    have hh : ∀ (h g : Head F), (∀ f, h ≠ .flt f) → headIdentical h g = true → h = g := by
      intro h g hf e
      rcases headIdentical_cases e with rfl | ⟨x, y, rfl, rfl, _⟩
      · rfl
      · exact absurd rfl (hf x)
    have := Expr.rec (motive_1 := fun a : Expr F => ∀ b, a.All (fun h => ∀ f, h ≠ .flt f) → identical a b = true → a = b)
      (motive_2 := fun as : List (Expr F) => ∀ bs, Expr.Alls (fun h => ∀ f, h ≠ .flt f) as → identicals as bs = true → as = bs)
      (by
        intro h as ih b hb e
        obtain ⟨g, bs⟩ := b
        rw [identical, Bool.and_eq_true] at e
        rw [hh h g hb.1 e.1, ih bs hb.2 e.2])
      (by
        intro bs _ e
        cases bs with
        | nil => rfl
        | cons => simp [identicals] at e)
      (by
        intro a as ih1 ih2 bs hb e
        cases bs with
        | nil => simp [identicals] at e
        | cons b bs =>
          rw [identicals, Bool.and_eq_true] at e
          rw [ih1 b hb.1 e.1, ih2 bs hb.2 e.2]) a
    exact this b ha h
  rw [key]

/-- Zero and negative zero are identical expressions with different hashes. -/
theorem C11_signed_zero : identical (F := Ieee) (.flt .negZero) (.flt (.num 0)) = true ∧
    hash (F := Ieee) (.flt .negZero) ≠ hash (F := Ieee) (.flt (.num 0)) := by
  constructor <;> decide +kernel

/-! ## Non-vacuity -/

/-- Integers as floating point constants are lawful. -/
instance : FloatCmp Int where
  eq a b := decide (a = b)
  lt a b := decide (a < b)
  bits := UInt64.ofInt

instance : LawfulFloat Int where
  eq_iff a b := by simp [FloatCmp.eq]
  lt_irrefl a := by simp [FloatCmp.lt]
  lt_trans a b c := by simp only [FloatCmp.lt, decide_eq_true_eq]; exact Int.lt_trans
  lt_total a b h := by simp only [FloatCmp.lt, decide_eq_true_eq]; omega

/-- `2.5 · x + f(y, 1/3)` (with 25 standing for the float). -/
def sampleExpr : Expr Int :=
  .add [.mul [.flt 25, .var "x" .real], .symfn "f" [.var "y" .unknown, .rat ⟨1, 3⟩]]

example : sampleExpr.Regular ⟨fun n => ⟨n, .nil, 0⟩, fun n => ⟨n, [], .scalar .floating⟩⟩ := by
  have c : RatC.Canonical ⟨1, 3⟩ := by refine ⟨?_, ?_, ?_, ?_⟩ <;> decide
  simp [sampleExpr, Expr.Regular, Expr.All, Expr.Alls, Head.Regular, c]

example : order sampleExpr (.add [.mul [.flt 25, .var "x" .real], .symfn "f" [.var "y" .unknown, .rat ⟨1, 2⟩]]) = .ok .lt ∧
    order (.pow (.var "x" .real) (.int 2)) sampleExpr = .ok .gt ∧
    hash (F := Int) (.pow (.var "x" .real) (.int 2)) ≠ hash sampleExpr := by decide +kernel

example : ∃ o, order sampleExpr (.int 3) = .ok o := C10_always_comparable _ _
  (by
    have c : RatC.Canonical ⟨1, 3⟩ := by refine ⟨?_, ?_, ?_, ?_⟩ <;> decide
    simp [sampleExpr, Expr.All, Expr.Alls, c])
  (by simp [Expr.All, Expr.Alls])

end Wf.Sym
