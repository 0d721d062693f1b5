import Verif.Sym.SortModel
import Verif.Sym.OrderProps
import Mathlib.Data.List.Perm.Basic

/-! # C82: `sym.compare` and sorting with it -/

namespace Wf.Sym.Sort

variable {F : Type}

/-! ## Specification -/

/-- Every two neighbours of the list compare, and none belongs after the next. -/
def InOrder [FloatCmp F] : List (Expr F) → Prop
  | [] => True
  | [_] => True
  | a :: b :: rest => (∃ c, compareE a b = .ok c ∧ c ≤ 0) ∧ InOrder (b :: rest)

/-- The rational constants of the expression are in lowest terms with numerator and denominator of at most 2³¹. -/
def SmallRationals (e : Expr F) : Prop :=
  e.All fun h => ∀ r, h = .rat r → r.Canonical ∧ |r.n| ≤ 2 ^ 31 ∧ r.d ≤ 2 ^ 31

/-! ## Lemmas -/

theorem compareE_ok [FloatCmp F] {a b : Expr F} {c : Int} (h : compareE a b = .ok c) : ∃ o, order a b = .ok o ∧ c = number o := by
  unfold compareE at h
  split at h
  · next o ho => cases h; exact ⟨o, ho, rfl⟩
  · cases h

variable [FloatCmp F] [DecidableEq F] [LawfulFloat F]

/-- Not after: before, or identical. -/
def Upto (a b : Expr F) : Prop := exactOrder a b = .lt ∨ a = b

theorem upto_of_compare (reg : Registry) {a b : Expr F} (ha : a.Regular reg) (hb : b.Regular reg) {c : Int}
    (h : compareE a b = .ok c) (hc : c ≤ 0) : Upto a b := by
  obtain ⟨o, ho, rfl⟩ := compareE_ok h
  have e := (C10_exact_total_order reg a b b ha hb hb).2.2.2 o ho
  cases o with
  | lt => exact Or.inl e
  | eq => exact Or.inr ((identical_iff a b).mp ((C10_exact_total_order reg a b b ha hb hb).1.mp e))
  | gt => simp [number] at hc

theorem upto_trans (reg : Registry) {a b c : Expr F} (ha : a.Regular reg) (hb : b.Regular reg) (hc : c.Regular reg)
    (h1 : Upto a b) (h2 : Upto b c) : Upto a c := by
  rcases h1 with h1 | rfl
  · rcases h2 with h2 | rfl
    · exact Or.inl ((C10_exact_total_order reg a b c ha hb hc).2.2.1 h1 h2)
    · exact Or.inl h1
  · exact h2

theorem upto_antisymm (reg : Registry) {a b : Expr F} (ha : a.Regular reg) (hb : b.Regular reg)
    (h1 : Upto a b) (h2 : Upto b a) : a = b := by
  rcases h1 with h1 | h1
  · rcases h2 with h2 | h2
    · rw [(C10_exact_total_order reg a b b ha hb hb).2.1, h1] at h2; cases h2
    · exact h2.symm
  · exact h1

theorem inOrder_head (reg : Registry) (l : List (Expr F)) : ∀ a, (∀ e ∈ a :: l, e.Regular reg) → InOrder (a :: l) → ∀ e ∈ l, Upto a e := by
  induction l with
  | nil => intro a _ _ e he; cases he
  | cons b l ih =>
    intro a hr ho e he
    obtain ⟨⟨c, h1, h2⟩, h3⟩ := ho
    have hab := upto_of_compare reg (hr a (by simp)) (hr b (by simp)) h1 h2
    rcases List.mem_cons.mp he with rfl | he'
    · exact hab
    · exact upto_trans reg (hr a (by simp)) (hr b (by simp)) (hr e (by simp [he'])) hab
        (ih b (fun x hx => hr x (List.mem_cons_of_mem _ hx)) h3 e he')

theorem inOrder_tail {a : Expr F} {l : List (Expr F)} (h : InOrder (a :: l)) : InOrder l := by
  cases l with
  | nil => trivial
  | cons b l => exact h.2

theorem inOrder_unique (reg : Registry) (l : List (Expr F)) : ∀ m, (∀ e ∈ l, e.Regular reg) → l.Perm m → InOrder l → InOrder m → l = m := by
  induction l with
  | nil => intro m _ hp _ _; exact (List.nil_perm.mp hp).symm
  | cons a l ih =>
    intro m hr hp hl hm
    cases m with
    | nil => exact absurd hp.symm (by simp)
    | cons b m =>
      have hr' : ∀ e ∈ b :: m, e.Regular reg := fun e he => hr e (hp.mem_iff.mpr he)
      have hab : a = b := by
        have h1 : a ∈ b :: m := hp.mem_iff.mp (by simp)
        have h2 : b ∈ a :: l := hp.mem_iff.mpr (by simp)
        rcases List.mem_cons.mp h1 with h1 | h1
        · exact h1
        rcases List.mem_cons.mp h2 with h2 | h2
        · exact h2.symm
        exact upto_antisymm reg (hr a (by simp)) (hr' b (by simp)) (inOrder_head reg l a hr hl b h2) (inOrder_head reg m b hr' hm a h1)
      subst hab
      rw [ih m (fun e he => hr e (List.mem_cons_of_mem _ he)) ((List.perm_cons a).mp hp) (inOrder_tail hl) (inOrder_tail hm)]

omit [DecidableEq F] [LawfulFloat F] in
theorem compareE_total {a b : Expr F} (ha : SmallRationals a) (hb : SmallRationals b) : ∃ c, compareE a b = .ok c := by
  obtain ⟨o, ho⟩ := C10_always_comparable a b ha hb
  exact ⟨number o, by simp [compareE, ho]⟩

theorem compareE_swap (reg : Registry) {a b : Expr F} (ha : a.Regular reg) (hb : b.Regular reg) {c : Int} (h : compareE a b = .ok c) :
    compareE b a = .ok (-c) := by
  obtain ⟨o, ho, rfl⟩ := compareE_ok h
  unfold compareE
  rw [(C10_total_order_partial reg a b b ha hb hb).2.1, ho]
  cases o <;> rfl

/-- What insertion into a list in order gives. -/
theorem insertE_spec (reg : Registry) (a : Expr F) (ha : a.Regular reg) (sa : SmallRationals a) (l : List (Expr F)) :
    (∀ e ∈ l, e.Regular reg ∧ SmallRationals e) → InOrder l →
    ∃ m, insertE a l = .ok m ∧ m.Perm (a :: l) ∧ InOrder m ∧ (∀ x, m.head? = some x → x = a ∨ l.head? = some x) := by
  induction l with
  | nil => intro _ _; exact ⟨[a], rfl, List.Perm.refl _, trivial, fun x hx => Or.inl (by simpa using hx.symm)⟩
  | cons b l ih =>
    intro hr ho
    obtain ⟨c, hc⟩ := compareE_total sa (hr b (by simp)).2
    by_cases hneg : c < 0
    · exact ⟨a :: b :: l, by simp [insertE, hc, hneg, bind, Except.bind, pure, Except.pure], List.Perm.refl _,
        ⟨⟨c, hc, by omega⟩, ho⟩, fun x hx => Or.inl (by simpa using hx.symm)⟩
    · obtain ⟨m, h1, h2, h3, h4⟩ := ih (fun e he => hr e (List.mem_cons_of_mem _ he)) (inOrder_tail ho)
      refine ⟨b :: m, by simp [insertE, hc, hneg, h1, bind, Except.bind, pure, Except.pure],
        (h2.cons b).trans (List.Perm.swap a b l), ?_, fun x hx => Or.inr (by simpa using hx)⟩
      cases m with
      | nil => trivial
      | cons x m =>
        refine ⟨?_, h3⟩
        rcases h4 x rfl with rfl | hx
        · exact ⟨-c, compareE_swap reg ha (hr b (by simp)).1 hc, by omega⟩
        · cases l with
          | nil => simp at hx
          | cons y l => simp at hx; subst hx; exact ho.1

theorem sortE_spec (reg : Registry) (l : List (Expr F)) : ∀ done, (∀ e ∈ l, e.Regular reg ∧ SmallRationals e) →
    (∀ e ∈ done, e.Regular reg ∧ SmallRationals e) → InOrder done →
    ∃ m, sortE done l = .ok m ∧ m.Perm (done ++ l) ∧ InOrder m := by
  induction l with
  | nil => intro done _ _ ho; exact ⟨done, rfl, by simp, ho⟩
  | cons a l ih =>
    intro done hl hd ho
    obtain ⟨d, h1, h2, h3, -⟩ := insertE_spec reg a (hl a (by simp)).1 (hl a (by simp)).2 done hd ho
    have hd' : ∀ e ∈ d, e.Regular reg ∧ SmallRationals e := by
      intro e he
      rcases List.mem_cons.mp (h2.mem_iff.mp he) with rfl | he
      · exact hl _ (by simp)
      · exact hd e he
    obtain ⟨m, g1, g2, g3⟩ := ih d (fun e he => hl e (List.mem_cons_of_mem _ he)) hd' h3
    refine ⟨m, by simp [sortE, h1, g1, bind, Except.bind], g2.trans ((h2.append_right l).trans ?_), g3⟩
    simpa using (List.perm_middle (l₁ := done) (a := a) (l₂ := l)).symm

/-! ## C82

Missing from the full claim: constants that are not a number (`C82_nan_refuted`; `(-1.0)**0.5` makes one, power.cc:57-67), different types or
functions of the same name (`C10_same_name_types`, `C10_same_name_functions`), rational constants whose comparison overflows
(`C10_overflow_terminates`). -/

/-- `sym.compare` answers -1, 0 or 1; it answers 0 exactly for identical expressions; swapping the arguments negates the answer. -/
theorem C82_compare_partial (reg : Registry) (a b : Expr F) (ha : a.Regular reg) (hb : b.Regular reg) (c : Int) (h : compareE a b = .ok c) :
    (c = -1 ∨ c = 0 ∨ c = 1) ∧ (c = 0 ↔ identical a b = true) ∧ compareE b a = .ok (-c) := by
  refine ⟨?_, ?_, compareE_swap reg ha hb h⟩
  · obtain ⟨o, -, rfl⟩ := compareE_ok h
    cases o <;> simp [number]
  · obtain ⟨o, ho, rfl⟩ := compareE_ok h
    rw [← (C10_total_order_partial reg a b b ha hb hb).1, ho]
    cases o <;> simp [number]

/-- Whatever the sorting algorithm: two lists with the same expressions, in which no expression belongs after its successor, are the same. -/
theorem C82_sorted_unique_partial (reg : Registry) (l m : List (Expr F)) (hr : ∀ e ∈ l, e.Regular reg) (hp : l.Perm m)
    (hl : InOrder l) (hm : InOrder m) : l = m := inOrder_unique reg l m hr hp hl hm

/-- Sorting succeeds, keeps every expression as often as it was there, and puts them in order; the result does not depend on the order in
which the expressions were given. -/
theorem C82_sort_partial (reg : Registry) (l : List (Expr F)) (hr : ∀ e ∈ l, e.Regular reg ∧ SmallRationals e) :
    ∃ m, sortE [] l = .ok m ∧ m.Perm l ∧ InOrder m ∧ ∀ l', l'.Perm l → sortE [] l' = .ok m := by
  obtain ⟨m, h1, h2, h3⟩ := sortE_spec reg l [] hr (by simp) trivial
  refine ⟨m, h1, by simpa using h2, h3, fun l' hp => ?_⟩
  obtain ⟨m', g1, g2, g3⟩ := sortE_spec reg l' [] (fun e he => hr e (hp.mem_iff.mp he)) (by simp) trivial
  have hmm : m'.Perm m := (by simpa using g2 : m'.Perm l').trans (hp.trans (by simpa using h2.symm))
  rw [g1, inOrder_unique reg m' m (fun e he => (hr e (hp.mem_iff.mp ((by simpa using g2 : m'.Perm l').mem_iff.mp he))).1) hmm g3 h3]

omit [FloatCmp F] [DecidableEq F] [LawfulFloat F] in
/-- With a not-a-number constant a list and its reverse are both in order (Python's `sorted` leaves such lists as they are), in one of them
with the larger number first; and sorting gives different results for different orders of the same expressions. -/
theorem C82_nan_refuted : ∃ a n b : Expr Ieee, compareE a b = .ok (-1) ∧ InOrder [a, n, b] ∧ InOrder [b, n, a] ∧
    sortE [] [a, n, b] ≠ sortE [] [b, n, a] :=
  ⟨.flt (.num 1), .flt .nan, .flt (.num 2), by decide +kernel,
    ⟨⟨0, by decide +kernel, by decide⟩, ⟨0, by decide +kernel, by decide⟩, trivial⟩,
    ⟨⟨0, by decide +kernel, by decide⟩, ⟨0, by decide +kernel, by decide⟩, trivial⟩, by decide +kernel⟩

/-! ## Non-vacuity -/

/-- `x²`, `x`, `8`, `5`, `8` given in two orders. -/
example : sortE (F := Int) [] [.pow (.var "x" .real) (.int 2), .var "x" .real, .int 8, .int 5, .int 8] =
    sortE [] [.int 8, .int 8, .int 5, .var "x" .real, .pow (.var "x" .real) (.int 2)] ∧
    compareE (F := Int) (.int 5) (.int 8) = .ok (-1) ∧ compareE (F := Int) (.var "y" .real) (.var "x" .real) = .ok 1 := by
  decide +kernel

example : ∃ m, sortE [] [sampleExpr, .int 3, sampleExpr] = .ok m ∧ m.Perm [sampleExpr, .int 3, sampleExpr] := by
  have c : RatC.Canonical ⟨1, 3⟩ := by refine ⟨?_, ?_, ?_, ?_⟩ <;> decide
  obtain ⟨m, h1, h2, -⟩ := C82_sort_partial ⟨fun n => ⟨n, .nil, 0⟩, fun n => ⟨n, [], .scalar .floating⟩⟩ [sampleExpr, .int 3, sampleExpr]
    (by
      intro e he
      simp only [List.mem_cons, List.not_mem_nil, or_false] at he
      rcases he with rfl | rfl | rfl <;>
        simp [sampleExpr, SmallRationals, Expr.Regular, Expr.All, Expr.Alls, Head.Regular, c])
  exact ⟨m, h1, h2⟩

end Wf.Sym.Sort
