import Verif.Sym.EvalSpec
import Verif.Sym.OrderLemmas2
import Verif.Num.PowerProps

/-! # Lemmas on values of expressions and on well-formedness -/

namespace Wf.Sym
open Complex

section opt

theorem sumO_cons_some {a : Option ℂ} {as : List (Option ℂ)} {z : ℂ} :
    sumO (a :: as) = some z ↔ ∃ x y, a = some x ∧ sumO as = some y ∧ z = x + y := by
  cases a with
  | none => simp [sumO]
  | some x =>
    cases h : sumO as with
    | none => simp [sumO, h]
    | some y => simp [sumO, h, eq_comm]

theorem prodO_cons_some {a : Option ℂ} {as : List (Option ℂ)} {z : ℂ} :
    prodO (a :: as) = some z ↔ ∃ x y, a = some x ∧ prodO as = some y ∧ z = x * y := by
  cases a with
  | none => simp [prodO]
  | some x =>
    cases h : prodO as with
    | none => simp [prodO, h]
    | some y => simp [prodO, h, eq_comm]

/-- Sum of two optional values. -/
noncomputable def addO (a b : Option ℂ) : Option ℂ := a.bind fun x => b.map (x + ·)
/-- Product of two optional values. -/
noncomputable def mulO (a b : Option ℂ) : Option ℂ := a.bind fun x => b.map (x * ·)

@[simp] theorem addO_some (x y : ℂ) : addO (some x) (some y) = some (x + y) := rfl
@[simp] theorem mulO_some (x y : ℂ) : mulO (some x) (some y) = some (x * y) := rfl
theorem addO_eq_some {a b : Option ℂ} {z : ℂ} : addO a b = some z ↔ ∃ x y, a = some x ∧ b = some y ∧ z = x + y := by
  cases a <;> cases b <;> simp [addO, eq_comm]
theorem mulO_eq_some {a b : Option ℂ} {z : ℂ} : mulO a b = some z ↔ ∃ x y, a = some x ∧ b = some y ∧ z = x * y := by
  cases a <;> cases b <;> simp [mulO, eq_comm]
theorem addO_comm (a b : Option ℂ) : addO a b = addO b a := by cases a <;> cases b <;> simp [addO, add_comm]
theorem mulO_comm (a b : Option ℂ) : mulO a b = mulO b a := by cases a <;> cases b <;> simp [mulO, mul_comm]
theorem addO_assoc (a b c : Option ℂ) : addO (addO a b) c = addO a (addO b c) := by
  cases a <;> cases b <;> cases c <;> simp [addO, add_assoc]
theorem mulO_assoc (a b c : Option ℂ) : mulO (mulO a b) c = mulO a (mulO b c) := by
  cases a <;> cases b <;> cases c <;> simp [mulO, mul_assoc]
@[simp] theorem addO_zero (a : Option ℂ) : addO a (some 0) = a := by cases a <;> simp [addO]
@[simp] theorem zero_addO (a : Option ℂ) : addO (some 0) a = a := by cases a <;> simp [addO]
@[simp] theorem mulO_one (a : Option ℂ) : mulO a (some 1) = a := by cases a <;> simp [mulO]
@[simp] theorem one_mulO (a : Option ℂ) : mulO (some 1) a = a := by cases a <;> simp [mulO]

@[simp] theorem sumO_nil : sumO [] = some 0 := rfl
@[simp] theorem prodO_nil : prodO [] = some 1 := rfl
theorem sumO_cons (a : Option ℂ) (as) : sumO (a :: as) = addO a (sumO as) := rfl
theorem prodO_cons (a : Option ℂ) (as) : prodO (a :: as) = mulO a (prodO as) := rfl

theorem sumO_append (l m : List (Option ℂ)) : sumO (l ++ m) = addO (sumO l) (sumO m) := by
  induction l with
  | nil => simp
  | cons a l ih => rw [List.cons_append, sumO_cons, ih, sumO_cons, addO_assoc]

theorem prodO_append (l m : List (Option ℂ)) : prodO (l ++ m) = mulO (prodO l) (prodO m) := by
  induction l with
  | nil => simp
  | cons a l ih => rw [List.cons_append, prodO_cons, ih, prodO_cons, mulO_assoc]

theorem sumO_perm {l m : List (Option ℂ)} (h : l.Perm m) : sumO l = sumO m := by
  induction h with
  | nil => rfl
  | cons a _ ih => rw [sumO_cons, sumO_cons, ih]
  | swap a b l => rw [sumO_cons, sumO_cons, sumO_cons, sumO_cons, ← addO_assoc, ← addO_assoc, addO_comm a b]
  | trans _ _ ih1 ih2 => rw [ih1, ih2]

theorem prodO_perm {l m : List (Option ℂ)} (h : l.Perm m) : prodO l = prodO m := by
  induction h with
  | nil => rfl
  | cons a _ ih => rw [prodO_cons, prodO_cons, ih]
  | swap a b l => rw [prodO_cons, prodO_cons, prodO_cons, prodO_cons, ← mulO_assoc, ← mulO_assoc, mulO_comm a b]
  | trans _ _ ih1 ih2 => rw [ih1, ih2]

/-- Dropping terms of value zero keeps the sum. -/
theorem sumO_filter {α : Type} (f : α → Option ℂ) (p : α → Bool) (l : List α) (z : ℂ)
    (hd : ∀ a ∈ l, p a = false → ∀ v, f a = some v → v = 0) (h : sumO (l.map f) = some z) : sumO ((l.filter p).map f) = some z := by
  induction l generalizing z with
  | nil => exact h
  | cons a l ih =>
    rw [List.map_cons, sumO_cons_some] at h
    obtain ⟨x, y, hx, hy, rfl⟩ := h
    have hi := ih y (fun b hb => hd b (List.mem_cons_of_mem _ hb)) hy
    cases hp : p a with
    | true =>
      rw [List.filter_cons_of_pos (by rw [hp]), List.map_cons, sumO_cons, hx, hi]; rfl
    | false =>
      rw [List.filter_cons_of_neg (by rw [hp]; decide), hi, hd a List.mem_cons_self hp x hx, zero_add]

/-- Dropping factors of value one keeps the product. -/
theorem prodO_filter {α : Type} (f : α → Option ℂ) (p : α → Bool) (l : List α) (z : ℂ)
    (hd : ∀ a ∈ l, p a = false → ∀ v, f a = some v → v = 1) (h : prodO (l.map f) = some z) : prodO ((l.filter p).map f) = some z := by
  induction l generalizing z with
  | nil => exact h
  | cons a l ih =>
    rw [List.map_cons, prodO_cons_some] at h
    obtain ⟨x, y, hx, hy, rfl⟩ := h
    have hi := ih y (fun b hb => hd b (List.mem_cons_of_mem _ hb)) hy
    cases hp : p a with
    | true =>
      rw [List.filter_cons_of_pos (by rw [hp]), List.map_cons, prodO_cons, hx, hi]; rfl
    | false =>
      rw [List.filter_cons_of_neg (by rw [hp]; decide), hi, hd a List.mem_cons_self hp x hx, one_mul]

theorem powO_eq_some {a b : Option ℂ} {z : ℂ} : powO a b = some z ↔ ∃ x y, a = some x ∧ b = some y ∧ powVal x y = some z := by
  cases a <;> cases b <;> simp [powO]

@[simp] theorem powO_some (x y : ℂ) : powO (some x) (some y) = powVal x y := rfl

theorem powVal_of_ne {z : ℂ} (h : z ≠ 0) (w : ℂ) : powVal z w = some (z ^ w) := by rw [powVal, if_neg h]
theorem powVal_zero_pos {w : ℂ} (h : 0 < w.re) : powVal 0 w = some 0 := by rw [powVal, if_pos rfl, if_pos h]
theorem powVal_cases {z w v : ℂ} (h : powVal z w = some v) : (z ≠ 0 ∧ v = z ^ w) ∨ (z = 0 ∧ 0 < w.re ∧ v = 0) := by
  unfold powVal at h
  split_ifs at h with h1 h2
  · right; exact ⟨h1, h2, (Option.some.inj h).symm⟩
  · left; exact ⟨h1, (Option.some.inj h).symm⟩

/-- Powers of one base multiply by adding exponents. -/
theorem powVal_add {z w v a b : ℂ} (h1 : powVal z w = some a) (h2 : powVal z v = some b) : powVal z (w + v) = some (a * b) := by
  rcases powVal_cases h1 with ⟨hz, rfl⟩ | ⟨rfl, hw, rfl⟩
  · rcases powVal_cases h2 with ⟨_, rfl⟩ | ⟨h, _⟩
    · rw [powVal_of_ne hz, cpow_add _ _ hz]
    · exact absurd h hz
  · rcases powVal_cases h2 with ⟨h, _⟩ | ⟨_, hv, rfl⟩
    · exact absurd rfl h
    · rw [powVal_zero_pos (by rw [add_re]; exact add_pos hw hv), mul_zero]

theorem powVal_one (z : ℂ) : powVal z 1 = some z := by
  by_cases h : z = 0
  · subst h; exact powVal_zero_pos (by simp)
  · rw [powVal_of_ne h, cpow_one]

theorem powVal_zero {z v : ℂ} (h : powVal z 0 = some v) : v = 1 := by
  rcases powVal_cases h with ⟨_, rfl⟩ | ⟨_, h, _⟩
  · exact cpow_zero z
  · simp at h

end opt

variable {F : Type} [DecidableEq F] [FloatSem F]

theorem evals_eq (ρ : Env F) (l : List (Expr F)) : evals ρ l = l.map (eval ρ) := by
  induction l with
  | nil => rfl
  | cons a l ih => rw [evals, ih, List.map_cons]

theorem goods_iff {l : List (Expr F)} : Goods l ↔ ∀ t ∈ l, Good t := by
  induction l with
  | nil => simp [Goods]
  | cons a l ih => rw [Goods, ih, List.forall_mem_cons]

theorem eq_of_identical {a b : Expr F} (h : identical a b = true) : a = b := (identical_iff a b).1 h
theorem identical_self (a : Expr F) : identical a a = true := (identical_iff a a).2 rfl

theorem isInt_iff {n : Int} {e : Expr F} : isInt n e = true ↔ e = .int n := identical_iff e (.int n)
theorem isZoo_iff {e : Expr F} : isZoo e = true ↔ e = .zoo := identical_iff e .zoo
theorem isUndef_iff {e : Expr F} : isUndef e = true ↔ e = .undef := identical_iff e .undef
theorem isImag_iff {e : Expr F} : isImag e = true ↔ e = .imag := identical_iff e .imag
theorem isConst_iff {c : SymConst} {e : Expr F} : isConst c e = true ↔ e = .const c := identical_iff e (.const c)

/-! ### Values of particular nodes -/

section values
variable (ρ : Env F)

@[simp] theorem eval_int (n : Int) : eval ρ (.int n) = some (n : ℂ) := by rw [eval]; rfl
@[simp] theorem eval_rat (r : RatC) : eval ρ (.rat r) = some ((r.val : ℚ) : ℂ) := by rw [eval]; rfl
theorem eval_flt (f : F) : eval ρ (.flt f) = (FloatSem.val f).map (fun x : ℝ => (x : ℂ)) := by rw [eval]; rfl
@[simp] theorem eval_const (c : SymConst) : eval ρ (.const c) = some ((c.val : ℝ) : ℂ) := by rw [eval]; rfl
@[simp] theorem eval_imag : eval ρ .imag = some I := by rw [eval]; rfl
@[simp] theorem eval_undef : eval ρ .undef = none := by rw [eval]; rfl
@[simp] theorem eval_zoo : eval ρ .zoo = none := by rw [eval]; rfl
theorem eval_mul (ts : List (Expr F)) : eval ρ (.mul ts) = prodO (ts.map (eval ρ)) := by
  rw [eval, evals_eq]; cases ts <;> rfl
theorem eval_add (ts : List (Expr F)) : eval ρ (.add ts) = sumO (ts.map (eval ρ)) := by
  rw [eval, evals_eq]; cases ts <;> rfl
theorem eval_pow (b e : Expr F) : eval ρ (.pow b e) = powO (eval ρ b) (eval ρ e) := by rw [eval]; rfl
theorem eval_fn (f : BuiltIn) (ts : List (Expr F)) : eval ρ (.fn f ts) = (seqO (ts.map (eval ρ))).bind (fnVal f) := by
  rw [eval, evals_eq]; cases ts <;> rfl

theorem eval_exp (x : Expr F) : eval ρ (.fn .exp [x]) = (eval ρ x).map exp := by
  rw [eval_fn]
  cases h : eval ρ x <;> simp [seqO, h, fnVal]

end values

/-! ### Well-formedness of particular nodes -/

theorem good_node {h : Head F} {as : List (Expr F)} : Good (.node h as) ↔ GoodNode h as ∧ ∀ t ∈ as, Good t := by
  rw [Good, goods_iff]

theorem good_int {n : Int} : Good (.int n : Expr F) ↔ InI64 n := by rw [good_node]; simp [GoodNode]
theorem good_rat {r : RatC} : Good (.rat r : Expr F) ↔ r.Canonical ∧ r.d ≠ 1 := by rw [good_node]; simp [GoodNode]
theorem good_flt (f : F) : Good (.flt f : Expr F) := by rw [good_node]; simp [GoodNode]
theorem good_const (c : SymConst) : Good (.const c : Expr F) := by rw [good_node]; simp [GoodNode]
theorem good_imag : Good (.imag : Expr F) := by rw [good_node]; simp [GoodNode]
theorem good_undef : Good (.undef : Expr F) := by rw [good_node]; simp [GoodNode]
theorem good_zoo : Good (.zoo : Expr F) := by rw [good_node]; simp [GoodNode]
theorem good_mul {ts : List (Expr F)} : Good (.mul ts) ↔ (2 ≤ ts.length ∧ (ts.filter isNumeric).length ≤ 1) ∧ ∀ t ∈ ts, Good t := by
  rw [good_node]; rfl
theorem good_add {ts : List (Expr F)} : Good (.add ts) ↔ ∀ t ∈ ts, Good t := by rw [good_node]; simp [GoodNode]
theorem good_pow {b e : Expr F} : Good (.pow b e) ↔ Good b ∧ Good e := by rw [good_node]; simp [GoodNode]
theorem good_fn {f : BuiltIn} {ts : List (Expr F)} : Good (.fn f ts) ↔ ∀ t ∈ ts, Good t := by rw [good_node]; simp [GoodNode]

theorem inI64_small {n : Int} (h : -4 ≤ n) (h' : n ≤ 4) : InI64 n := by unfold InI64 minI maxI; omega

theorem good_one : Good (.int 1 : Expr F) := good_int.2 (inI64_small (by decide) (by decide))
theorem good_zero : Good (.int 0 : Expr F) := good_int.2 (inI64_small (by decide) (by decide))
theorem good_negOne : Good (.int (-1) : Expr F) := good_int.2 (inI64_small (by decide) (by decide))

/-! ### Sorting -/

theorem sortTerms_perm (ts : List (Expr F)) : (sortTerms ts).Perm ts := List.perm_insertionSort _ _

theorem sortTerms_length (ts : List (Expr F)) : (sortTerms ts).length = ts.length := (sortTerms_perm ts).length_eq

theorem good_sorted_mul {ts : List (Expr F)} : Good (.mul (sortTerms ts)) ↔ Good (.mul ts) := by
  rw [good_mul, good_mul, sortTerms_length, ((sortTerms_perm ts).filter isNumeric).length_eq]
  constructor
  · rintro ⟨h1, h2⟩; exact ⟨h1, fun t ht => h2 t ((sortTerms_perm ts).mem_iff.2 ht)⟩
  · rintro ⟨h1, h2⟩; exact ⟨h1, fun t ht => h2 t ((sortTerms_perm ts).mem_iff.1 ht)⟩

theorem eval_sorted_mul (ρ : Env F) (ts : List (Expr F)) : eval ρ (.mul (sortTerms ts)) = prodO (ts.map (eval ρ)) := by
  rw [eval_mul]; exact prodO_perm ((sortTerms_perm ts).map _)

theorem eval_sorted_add (ρ : Env F) (ts : List (Expr F)) : eval ρ (.add (sortTerms ts)) = sumO (ts.map (eval ρ)) := by
  rw [eval_add]; exact sumO_perm ((sortTerms_perm ts).map _)

theorem eval_maybeNewMul (ρ : Env F) (ts : List (Expr F)) : eval ρ (maybeNewMul ts) = prodO (ts.map (eval ρ)) := by
  rcases ts with _ | ⟨a, _ | ⟨b, ts⟩⟩
  · simp [maybeNewMul]
  · simp [maybeNewMul, prodO_cons]
  · exact eval_sorted_mul ρ _

theorem good_maybeNewMul {ts : List (Expr F)} (hg : ∀ t ∈ ts, Good t) (hn : (ts.filter isNumeric).length ≤ 1) : Good (maybeNewMul ts) := by
  rcases ts with _ | ⟨a, _ | ⟨b, ts⟩⟩
  · exact good_one
  · exact hg a (by simp)
  · exact good_sorted_mul.2 (good_mul.2 ⟨⟨by simp, hn⟩, hg⟩)

theorem eval_newMul2 (ρ : Env F) (a b : Expr F) : eval ρ (newMul2 a b) = mulO (eval ρ a) (eval ρ b) := by
  rw [newMul2, eval_sorted_mul]; simp [prodO_cons]

theorem good_newMul2 {a b : Expr F} (ha : Good a) (hb : Good b) (hn : isNumeric a = false ∨ isNumeric b = false) : Good (newMul2 a b) := by
  refine good_sorted_mul.2 (good_mul.2 ⟨⟨by simp, ?_⟩, by simp [ha, hb]⟩)
  rcases hn with h | h
  · cases hb' : isNumeric b <;> simp [List.filter_cons, h, hb']
  · cases ha' : isNumeric a <;> simp [List.filter_cons, h, ha']

end Wf.Sym
