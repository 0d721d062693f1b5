import Verif.Sym.EvalLemmas

/-! # The sum constructor keeps the value -/

namespace Wf.Sym
open Complex

variable {F : Type} [DecidableEq F] [FloatSem F]

/-! ### Constant coefficients -/

/-- The value of a coefficient. -/
noncomputable def Coeff.val : Coeff F → Option ℂ
  | .int n => some (n : ℂ)
  | .rat r => some ((r.val : ℚ) : ℂ)
  | .flt f => (FloatSem.val f).map (fun x : ℝ => (x : ℂ))
  | .undef => none
  | .zoo => none

/-- A coefficient as the code makes it. -/
def Coeff.Fine : Coeff F → Prop
  | .int n => InI64 n
  | .rat r => r.Canonical
  | _ => True

theorem fltIsZero_val {f : F} {x : ℝ} (h : fltIsZero f = true) (hx : FloatSem.val f = some x) : x = 0 := by
  have h1 : f = FloatOps.ofInt 0 := (LawfulFloat.eq_iff f _).1 h
  rw [h1, FloatSem.val_ofInt 0 (inI64_small (by decide) (by decide))] at hx
  simpa using (Option.some.inj hx).symm

theorem fltCoeff_val {f : F} {x : ℝ} (hx : FloatSem.val f = some x) : (fltCoeff f).val = some (x : ℂ) := by
  unfold fltCoeff
  split
  · rename_i h
    rw [fltIsZero_val h hx]; simp [Coeff.val]
  · simp [Coeff.val, hx]

theorem fltCoeff_fine (f : F) : (fltCoeff f).Fine := by
  unfold fltCoeff; split
  · exact inI64_small (by decide) (by decide)
  · trivial

theorem intCoeff_ok {r : Res Int} {c : Coeff F} (h : intCoeff r = .ok c) : ∃ n, r = .ok n ∧ c = .int n := by
  cases r with
  | error e => simp [intCoeff] at h
  | ok n => simp only [intCoeff, Except.ok.injEq] at h; exact ⟨n, rfl, h.symm⟩

theorem ratCoeff_ok {r : Res RatC} {c : Coeff F} (h : ratCoeff r = .ok c) : ∃ n, r = .ok n ∧ c = .rat n := by
  cases r with
  | error e => simp [ratCoeff] at h
  | ok n => simp only [ratCoeff, Except.ok.injEq] at h; exact ⟨n, rfl, h.symm⟩

theorem cadd_ok {a b c : Int} (ha : InI64 a) (hb : InI64 b) (h : cadd a b = .ok c) : c = a + b ∧ InI64 c := by
  rw [C01_add_exact_or_raises a b ha hb, exactOrRaise] at h
  split_ifs at h with h1
  simp only [Except.ok.injEq] at h; subst h; exact ⟨rfl, h1⟩

theorem canonical_ofInt {n : Int} (h : InI64 n) : (ratOfInt n).Canonical :=
  ⟨h, by show InI64 1; exact inI64_small (by decide) (by decide), by show (0:Int) < 1; decide, by simp [ratOfInt]⟩

theorem ratOfInt_val (n : Int) : (ratOfInt n).val = n := by simp [ratOfInt, RatC.val]

theorem flt_some {f : F} {z : ℂ} (h : (FloatSem.val f).map (fun x : ℝ => (x : ℂ)) = some z) : ∃ x : ℝ, FloatSem.val f = some x ∧ z = x := by
  cases hv : FloatSem.val f with
  | none => rw [hv] at h; simp at h
  | some x => rw [hv] at h; exact ⟨x, rfl, by simpa using h.symm⟩

theorem addCoeff_ok {a b c : Coeff F} (ha : a.Fine) (hb : b.Fine) (h : addCoeff a b = .ok c) :
    c.Fine ∧ ∀ x y, a.val = some x → b.val = some y → c.val = some (x + y) := by
  cases a with
  | undef => simp only [addCoeff, Except.ok.injEq] at h; subst h; exact ⟨trivial, by simp [Coeff.val]⟩
  | zoo =>
    have : c = .undef ∨ c = .zoo := by
      cases b <;> simp only [addCoeff, Except.ok.injEq] at h <;> simp [← h]
    rcases this with rfl | rfl <;> exact ⟨trivial, by simp [Coeff.val]⟩
  | int m =>
    cases b with
    | undef => simp only [addCoeff, Except.ok.injEq] at h; subst h; exact ⟨trivial, by simp [Coeff.val]⟩
    | zoo => simp only [addCoeff, Except.ok.injEq] at h; subst h; exact ⟨trivial, by simp [Coeff.val]⟩
    | int n =>
      obtain ⟨k, hk, rfl⟩ := intCoeff_ok h
      obtain ⟨rfl, hi⟩ := cadd_ok ha hb hk
      refine ⟨hi, ?_⟩
      rintro _ _ ⟨⟩ ⟨⟩
      simp [Coeff.val]
    | rat s =>
      obtain ⟨k, hk, rfl⟩ := ratCoeff_ok h
      obtain ⟨hc, hv⟩ := ratAdd_ok hb (canonical_ofInt ha) hk
      refine ⟨hc, ?_⟩
      rintro _ _ ⟨⟩ ⟨⟩
      simp only [Coeff.val, hv, ratOfInt_val]; push_cast; rw [add_comm]
    | flt f =>
      simp only [addCoeff, Except.ok.injEq] at h; subst h
      refine ⟨fltCoeff_fine _, ?_⟩
      rintro _ _ ⟨⟩ hy
      obtain ⟨y, hy2, rfl⟩ := flt_some hy
      rw [fltCoeff_val (FloatSem.val_add _ _ _ _ hy2 (FloatSem.val_ofInt m ha))]; push_cast; rw [add_comm]
  | rat r =>
    cases b with
    | undef => simp only [addCoeff, Except.ok.injEq] at h; subst h; exact ⟨trivial, by simp [Coeff.val]⟩
    | zoo => simp only [addCoeff, Except.ok.injEq] at h; subst h; exact ⟨trivial, by simp [Coeff.val]⟩
    | int n =>
      obtain ⟨k, hk, rfl⟩ := ratCoeff_ok h
      obtain ⟨hc, hv⟩ := ratAdd_ok ha (canonical_ofInt hb) hk
      refine ⟨hc, ?_⟩
      rintro _ _ ⟨⟩ ⟨⟩
      simp only [Coeff.val, hv, ratOfInt_val]; push_cast; rfl
    | rat s =>
      obtain ⟨k, hk, rfl⟩ := ratCoeff_ok h
      obtain ⟨hc, hv⟩ := ratAdd_ok ha hb hk
      refine ⟨hc, ?_⟩
      rintro _ _ ⟨⟩ ⟨⟩
      simp only [Coeff.val, hv]; push_cast; rfl
    | flt f =>
      simp only [addCoeff, Except.ok.injEq] at h; subst h
      refine ⟨fltCoeff_fine _, ?_⟩
      rintro _ _ ⟨⟩ hy
      obtain ⟨y, hy2, rfl⟩ := flt_some hy
      rw [fltCoeff_val (FloatSem.val_add _ _ _ _ hy2 (FloatSem.val_ofRat r ha))]; push_cast; rw [add_comm]
  | flt f =>
    cases b with
    | undef => simp only [addCoeff, Except.ok.injEq] at h; subst h; exact ⟨trivial, by simp [Coeff.val]⟩
    | zoo => simp only [addCoeff, Except.ok.injEq] at h; subst h; exact ⟨trivial, by simp [Coeff.val]⟩
    | int n =>
      simp only [addCoeff, Except.ok.injEq] at h; subst h
      refine ⟨fltCoeff_fine _, ?_⟩
      rintro _ _ hx ⟨⟩
      obtain ⟨x, hx2, rfl⟩ := flt_some hx
      rw [fltCoeff_val (FloatSem.val_add _ _ _ _ hx2 (FloatSem.val_ofInt n hb))]; push_cast; rfl
    | rat s =>
      simp only [addCoeff, Except.ok.injEq] at h; subst h
      refine ⟨fltCoeff_fine _, ?_⟩
      rintro _ _ hx ⟨⟩
      obtain ⟨x, hx2, rfl⟩ := flt_some hx
      rw [fltCoeff_val (FloatSem.val_add _ _ _ _ hx2 (FloatSem.val_ofRat s hb))]; push_cast; rfl
    | flt g =>
      simp only [addCoeff, Except.ok.injEq] at h; subst h
      refine ⟨fltCoeff_fine _, ?_⟩
      rintro _ _ hx hy
      obtain ⟨x, hx2, rfl⟩ := flt_some hx
      obtain ⟨y, hy2, rfl⟩ := flt_some hy
      rw [fltCoeff_val (FloatSem.val_add _ _ _ _ hx2 hy2)]; push_cast; rfl

theorem mulCoeff_ok {a b c : Coeff F} (ha : a.Fine) (hb : b.Fine) (h : mulCoeff a b = .ok c) :
    c.Fine ∧ ∀ x y, a.val = some x → b.val = some y → c.val = some (x * y) := by
  cases a with
  | undef => simp only [mulCoeff, Except.ok.injEq] at h; subst h; exact ⟨trivial, by simp [Coeff.val]⟩
  | zoo =>
    have : c = .undef ∨ c = .zoo := by
      cases b <;> simp only [mulCoeff, Except.ok.injEq] at h <;> first | (split at h <;> simp [← h]) | simp [← h]
    rcases this with rfl | rfl <;> exact ⟨trivial, by simp [Coeff.val]⟩
  | int m =>
    cases b with
    | undef => simp only [mulCoeff, Except.ok.injEq] at h; subst h; exact ⟨trivial, by simp [Coeff.val]⟩
    | zoo =>
      simp only [mulCoeff, Except.ok.injEq] at h; subst h
      exact ⟨by split <;> trivial, by simp [Coeff.val]⟩
    | int n =>
      obtain ⟨k, hk, rfl⟩ := intCoeff_ok h
      obtain ⟨rfl, hi⟩ := cmul_ok ha hb hk
      refine ⟨hi, ?_⟩
      rintro _ _ ⟨⟩ ⟨⟩
      simp [Coeff.val]
    | rat s =>
      obtain ⟨k, hk, rfl⟩ := ratCoeff_ok h
      obtain ⟨hc, hv⟩ := ratMul_ok hb (canonical_ofInt ha) hk
      refine ⟨hc, ?_⟩
      rintro _ _ ⟨⟩ ⟨⟩
      simp only [Coeff.val, hv, ratOfInt_val]; push_cast; rw [mul_comm]
    | flt f =>
      simp only [mulCoeff, Except.ok.injEq] at h; subst h
      refine ⟨fltCoeff_fine _, ?_⟩
      rintro _ _ ⟨⟩ hy
      obtain ⟨y, hy2, rfl⟩ := flt_some hy
      rw [fltCoeff_val (FloatSem.val_mul _ _ _ _ hy2 (FloatSem.val_ofInt m ha))]; push_cast; rw [mul_comm]
  | rat r =>
    cases b with
    | undef => simp only [mulCoeff, Except.ok.injEq] at h; subst h; exact ⟨trivial, by simp [Coeff.val]⟩
    | zoo =>
      simp only [mulCoeff, Except.ok.injEq] at h; subst h
      exact ⟨by split <;> trivial, by simp [Coeff.val]⟩
    | int n =>
      obtain ⟨k, hk, rfl⟩ := ratCoeff_ok h
      obtain ⟨hc, hv⟩ := ratMul_ok ha (canonical_ofInt hb) hk
      refine ⟨hc, ?_⟩
      rintro _ _ ⟨⟩ ⟨⟩
      simp only [Coeff.val, hv, ratOfInt_val]; push_cast; rfl
    | rat s =>
      obtain ⟨k, hk, rfl⟩ := ratCoeff_ok h
      obtain ⟨hc, hv⟩ := ratMul_ok ha hb hk
      refine ⟨hc, ?_⟩
      rintro _ _ ⟨⟩ ⟨⟩
      simp only [Coeff.val, hv]; push_cast; rfl
    | flt f =>
      simp only [mulCoeff, Except.ok.injEq] at h; subst h
      refine ⟨fltCoeff_fine _, ?_⟩
      rintro _ _ ⟨⟩ hy
      obtain ⟨y, hy2, rfl⟩ := flt_some hy
      rw [fltCoeff_val (FloatSem.val_mul _ _ _ _ hy2 (FloatSem.val_ofRat r ha))]; push_cast; rw [mul_comm]
  | flt f =>
    cases b with
    | undef => simp only [mulCoeff, Except.ok.injEq] at h; subst h; exact ⟨trivial, by simp [Coeff.val]⟩
    | zoo =>
      simp only [mulCoeff, Except.ok.injEq] at h; subst h
      exact ⟨by split <;> trivial, by simp [Coeff.val]⟩
    | int n =>
      simp only [mulCoeff, Except.ok.injEq] at h; subst h
      refine ⟨fltCoeff_fine _, ?_⟩
      rintro _ _ hx ⟨⟩
      obtain ⟨x, hx2, rfl⟩ := flt_some hx
      rw [fltCoeff_val (FloatSem.val_mul _ _ _ _ hx2 (FloatSem.val_ofInt n hb))]; push_cast; rfl
    | rat s =>
      simp only [mulCoeff, Except.ok.injEq] at h; subst h
      refine ⟨fltCoeff_fine _, ?_⟩
      rintro _ _ hx ⟨⟩
      obtain ⟨x, hx2, rfl⟩ := flt_some hx
      rw [fltCoeff_val (FloatSem.val_mul _ _ _ _ hx2 (FloatSem.val_ofRat s hb))]; push_cast; rfl
    | flt g =>
      simp only [mulCoeff, Except.ok.injEq] at h; subst h
      refine ⟨fltCoeff_fine _, ?_⟩
      rintro _ _ hx hy
      obtain ⟨x, hx2, rfl⟩ := flt_some hx
      obtain ⟨y, hy2, rfl⟩ := flt_some hy
      rw [fltCoeff_val (FloatSem.val_mul _ _ _ _ hx2 hy2)]; push_cast; rfl

/-- The expressions that stand for a coefficient. -/
def IsConstant (e : Expr F) : Prop := (Coeff.ofExpr e).isSome = true

theorem ratExpr_ok {r : RatC} {e : Expr F} (hr : r.Canonical) (h : ratExpr r = .ok e) :
    e = (if r.d = 1 then .int r.n else .rat r) ∧ Good e ∧ (∀ ρ : Env F, eval ρ e = some ((r.val : ℚ) : ℂ)) ∧ isNumeric e = true := by
  unfold ratExpr at h
  rw [C05_try_integer r hr] at h
  by_cases h1 : r.d = 1
  · rw [if_pos h1] at h
    simp only [Except.ok.injEq] at h
    subst h
    refine ⟨by rw [if_pos h1], good_int.2 hr.1, ?_, rfl⟩
    intro ρ; rw [eval_int, RatC.val, h1]; simp
  · rw [if_neg h1] at h
    simp only [Except.ok.injEq] at h
    subst h
    exact ⟨by rw [if_neg h1], good_rat.2 ⟨hr, h1⟩, fun ρ => eval_rat ρ r, rfl⟩

theorem floatExpr_good (f : F) : Good (floatExpr f) := by
  unfold floatExpr
  split
  · exact good_undef
  · split
    · exact good_zoo
    · exact good_flt f

theorem floatExpr_val {f : F} {x : ℝ} (h : FloatSem.val f = some x) (ρ : Env F) : eval ρ (floatExpr f) = some (x : ℂ) := by
  obtain ⟨h1, h2⟩ := FloatSem.finite f x h
  unfold floatExpr
  rw [if_neg (by rw [h1]; decide), if_neg (by rw [h2]; decide), eval_flt, h]; rfl

theorem toExpr_ok {c : Coeff F} {e : Expr F} (hc : c.Fine) (h : c.toExpr = .ok e) (ρ : Env F) :
    Good e ∧ IsConstant e ∧ ∀ x, c.val = some x → eval ρ e = some x := by
  cases c with
  | int n =>
    simp only [Coeff.toExpr, Except.ok.injEq] at h; subst h
    exact ⟨good_int.2 hc, rfl, fun x hx => by rw [eval_int]; exact hx⟩
  | rat r =>
    obtain ⟨he, hg, hv, _⟩ := ratExpr_ok hc h
    refine ⟨hg, ?_, fun x hx => by rw [hv ρ]; exact hx⟩
    rw [he]; split <;> rfl
  | flt f =>
    simp only [Coeff.toExpr, Except.ok.injEq] at h; subst h
    refine ⟨floatExpr_good f, ?_, ?_⟩
    · unfold floatExpr; split
      · rfl
      · split <;> rfl
    · intro x hx
      obtain ⟨y, hy2, rfl⟩ := flt_some hx
      exact floatExpr_val hy2 ρ
  | undef =>
    simp only [Coeff.toExpr, Except.ok.injEq] at h; subst h
    exact ⟨good_undef, rfl, by simp [Coeff.val]⟩
  | zoo =>
    simp only [Coeff.toExpr, Except.ok.injEq] at h; subst h
    exact ⟨good_zoo, rfl, by simp [Coeff.val]⟩

/-- The constants among the expressions, one by one. -/
theorem ofExpr_cases {e : Expr F} {c : Coeff F} (h : Coeff.ofExpr e = some c) :
    (∃ n, e = .int n ∧ c = .int n) ∨ (∃ r, e = .rat r ∧ c = .rat r) ∨ (∃ f, e = .flt f ∧ c = .flt f) ∨
    (e = .undef ∧ c = .undef) ∨ (e = .zoo ∧ c = .zoo) := by
  unfold Coeff.ofExpr at h
  split at h <;> simp only [Option.some.injEq, reduceCtorEq] at h <;> subst h
  · exact Or.inl ⟨_, rfl, rfl⟩
  · exact Or.inr (Or.inl ⟨_, rfl, rfl⟩)
  · exact Or.inr (Or.inr (Or.inl ⟨_, rfl, rfl⟩))
  · exact Or.inr (Or.inr (Or.inr (Or.inl ⟨rfl, rfl⟩)))
  · exact Or.inr (Or.inr (Or.inr (Or.inr ⟨rfl, rfl⟩)))

theorem ofExpr_ok {e : Expr F} {c : Coeff F} (hg : Good e) (h : Coeff.ofExpr e = some c) (ρ : Env F) :
    c.Fine ∧ c.val = eval ρ e := by
  rcases ofExpr_cases h with ⟨n, rfl, rfl⟩ | ⟨r, rfl, rfl⟩ | ⟨f, rfl, rfl⟩ | ⟨rfl, rfl⟩ | ⟨rfl, rfl⟩
  · exact ⟨good_int.1 hg, by simp [Coeff.val]⟩
  · exact ⟨(good_rat.1 hg).1, by simp [Coeff.val]⟩
  · exact ⟨trivial, by rw [eval_flt]; rfl⟩
  · exact ⟨trivial, by simp [Coeff.val]⟩
  · exact ⟨trivial, by simp [Coeff.val]⟩

theorem isNumeric_cases {e : Expr F} (h : isNumeric e = true) : (∃ n, e = .int n) ∨ (∃ r, e = .rat r) ∨ ∃ f, e = .flt f := by
  unfold isNumeric at h
  split at h <;> first | simp at h | skip
  · exact Or.inl ⟨_, rfl⟩
  · exact Or.inr (Or.inl ⟨_, rfl⟩)
  · exact Or.inr (Or.inr ⟨_, rfl⟩)

theorem not_numeric_of_not_const {e : Expr F} (h : Coeff.ofExpr e = none) : isNumeric e = false := by
  by_contra hc
  rw [Bool.not_eq_false] at hc
  rcases isNumeric_cases hc with ⟨n, rfl⟩ | ⟨r, rfl⟩ | ⟨f, rfl⟩ <;> simp [Coeff.ofExpr] at h

/-- The value of `multiplication_parts`. -/
noncomputable def MulParts.val (ρ : Env F) (p : MulParts F) : Option ℂ :=
  mulO p.coeff.val (prodO (p.terms.map (fun be => powO (eval ρ be.1) (eval ρ be.2))))

/-- `multiplication_parts` as the code makes it. -/
def MulParts.Fine (p : MulParts F) : Prop := p.coeff.Fine ∧ ∀ be ∈ p.terms, Good be.1 ∧ Good be.2

/-- Every constructor keeps well-formedness and, when the licences are true, the value. -/
structure Sound (lic : Lic F) (ρ : Env F) (K : Ctors F) : Prop where
  add : ∀ ts r, (∀ t ∈ ts, Good t) → K.add ts = .ok r →
    Good r ∧ (lic.TrueAt ρ → ∀ z, sumO (ts.map (eval ρ)) = some z → eval ρ r = some z)
  mul : ∀ ts r, (∀ t ∈ ts, Good t) → K.mul ts = .ok r →
    Good r ∧ (lic.TrueAt ρ → ∀ z, prodO (ts.map (eval ρ)) = some z → eval ρ r = some z)
  pow : ∀ b e r, Good b → Good e → K.pow b e = .ok r →
    Good r ∧ (lic.TrueAt ρ → ∀ z, powO (eval ρ b) (eval ρ e) = some z → eval ρ r = some z)
  visit : ∀ p t q, p.Fine → Good t → K.visit p t = .ok q →
    q.Fine ∧ (lic.TrueAt ρ → ∀ z, mulO (p.val ρ) (eval ρ t) = some z → q.val ρ = some z)

/-! ### Splitting off the numeric coefficient -/

theorem prodO_partition (f : Expr F → Option ℂ) (p : Expr F → Bool) (ts : List (Expr F)) :
    mulO (prodO ((ts.filter p).map f)) (prodO ((ts.filter (fun t => !p t)).map f)) = prodO (ts.map f) := by
  rw [← prodO_append, ← List.map_append]
  exact prodO_perm ((List.filter_append_perm p ts).map f)

theorem length_filter_not (p : Expr F → Bool) (ts : List (Expr F)) :
    (ts.filter p).length + (ts.filter (fun t => !p t)).length = ts.length := by
  rw [← List.length_append]; exact (List.filter_append_perm p ts).length_eq

theorem filter_not_numeric (ts : List (Expr F)) : (ts.filter (fun t => !isNumeric t)).filter isNumeric = [] := by
  rw [List.filter_eq_nil_iff]
  intro a ha
  have := (List.mem_filter.1 ha).2
  simpa using this

theorem splitMul_ok {ts : List (Expr F)} (hg : Good (.mul ts)) :
    Good (splitMul ts).1 ∧ Good (splitMul ts).2 ∧ isNumeric (splitMul ts).1 = true ∧ isNumeric (splitMul ts).2 = false ∧
    ∀ ρ : Env F, mulO (eval ρ (splitMul ts).1) (eval ρ (splitMul ts).2) = eval ρ (.mul ts) := by
  obtain ⟨⟨h2, h1⟩, hall⟩ := good_mul.1 hg
  unfold splitMul
  by_cases h0 : ts.filter isNumeric = []
  · rw [if_pos h0]
    refine ⟨good_one, hg, rfl, rfl, fun ρ => ?_⟩
    rw [eval_int]; simp
  · rw [if_neg h0]
    have hlen := length_filter_not isNumeric ts
    obtain ⟨c, hc⟩ : ∃ c, ts.filter isNumeric = [c] := by
      rcases hf : ts.filter isNumeric with _ | ⟨c, _ | ⟨d, l⟩⟩
      · exact absurd hf h0
      · exact ⟨c, rfl⟩
      · rw [hf] at h1; simp at h1
    have hcm : c ∈ ts.filter isNumeric := by rw [hc]; simp
    have hcg := hall c (List.mem_filter.1 hcm).1
    have hcn := (List.mem_filter.1 hcm).2
    have hrest : ∀ t ∈ ts.filter (fun t => !isNumeric t), Good t := fun t ht => hall t (List.mem_filter.1 ht).1
    refine ⟨by rw [hc]; exact hcg, good_maybeNewMul hrest (by rw [filter_not_numeric]; simp), by rw [hc]; exact hcn, ?_, ?_⟩
    · rcases hr : ts.filter (fun t => !isNumeric t) with _ | ⟨a, _ | ⟨b, l⟩⟩
      · rw [hr, hc] at hlen; simp at hlen; omega
      · have : a ∈ ts.filter (fun t => !isNumeric t) := by rw [hr]; simp
        have h3 := (List.mem_filter.1 this).2
        show isNumeric a = false
        simpa using h3
      · rfl
    · intro ρ
      rw [eval_maybeNewMul, eval_maybeNewMul, eval_mul, prodO_partition]

theorem asCoeffMul_mul {ts : List (Expr F)} (hg : Good (.mul ts)) :
    Good (asCoeffMul (.mul ts)).1 ∧ Good (asCoeffMul (.mul ts)).2 ∧ isNumeric (asCoeffMul (.mul ts)).1 = true ∧
    isNumeric (asCoeffMul (.mul ts)).2 = false ∧
    ∀ ρ : Env F, mulO (eval ρ (asCoeffMul (.mul ts)).1) (eval ρ (asCoeffMul (.mul ts)).2) = eval ρ (.mul ts) := by
  rcases ts with _ | ⟨a, _ | ⟨b, _ | ⟨c, l⟩⟩⟩
  · exact splitMul_ok hg
  · exact splitMul_ok hg
  · have hs := splitMul_ok hg
    have hall := (good_mul.1 hg).2
    have hga := hall a (by simp)
    have hgb := hall b (by simp)
    have he : asCoeffMul (.mul [a, b]) =
        if isNumeric a && !isNumeric b then (a, b) else if !isNumeric a && isNumeric b then (b, a) else splitMul [a, b] := rfl
    rw [he]
    cases ha : isNumeric a <;> cases hb : isNumeric b
    · exact hs
    · exact ⟨hgb, hga, hb, ha, fun ρ => by
        show mulO (eval ρ b) (eval ρ a) = _
        rw [eval_mul, mulO_comm]; simp [prodO_cons]⟩
    · exact ⟨hga, hgb, ha, hb, fun ρ => by
        show mulO (eval ρ a) (eval ρ b) = _
        rw [eval_mul]; simp [prodO_cons]⟩
    · exact hs
  · exact splitMul_ok hg

/-- What `as_coeff_and_mul` does outside products. -/
theorem asCoeffMul_other {e : Expr F} (hm : ∀ ts, e ≠ .mul ts) (hn : isNumeric e = false) : asCoeffMul e = (.int 1, e) := by
  unfold asCoeffMul
  split
  · simp [isNumeric] at hn
  · simp [isNumeric] at hn
  · simp [isNumeric] at hn
  · exact absurd rfl (hm _)
  · exact absurd rfl (hm _)
  · rfl

theorem asCoeffMul_ok {e : Expr F} (hg : Good e) :
    Good (asCoeffMul e).1 ∧ Good (asCoeffMul e).2 ∧ isNumeric (asCoeffMul e).1 = true ∧
    (isNumeric e = false → isNumeric (asCoeffMul e).2 = false) ∧
    (isNumeric e = true → asCoeffMul e = (e, .int 1)) ∧
    ∀ ρ : Env F, mulO (eval ρ (asCoeffMul e).1) (eval ρ (asCoeffMul e).2) = eval ρ e := by
  by_cases hm : ∃ ts, e = .mul ts
  · obtain ⟨ts, rfl⟩ := hm
    obtain ⟨h1, h2, h3, h4, h5⟩ := asCoeffMul_mul hg
    exact ⟨h1, h2, h3, fun _ => h4, fun h => by simp [isNumeric] at h, h5⟩
  · cases hn : isNumeric e with
    | true =>
      have : asCoeffMul e = (e, .int 1) := by
        rcases isNumeric_cases hn with ⟨n, rfl⟩ | ⟨r, rfl⟩ | ⟨f, rfl⟩ <;> rfl
      rw [this]
      exact ⟨hg, good_one, hn, by simp, by simp, fun ρ => by simp⟩
    | false =>
      rw [asCoeffMul_other (fun ts h => hm ⟨ts, h⟩) hn]
      exact ⟨good_one, hg, rfl, fun _ => hn, by simp, fun ρ => by simp⟩

/-! ### Lists of fallible results -/

theorem mapRes_ok {α β : Type} {f : α → Res β} {as : List α} {bs : List β} (h : mapRes f as = .ok bs) :
    List.Forall₂ (fun a b => f a = .ok b) as bs := by
  induction as generalizing bs with
  | nil => simp only [mapRes, Except.ok.injEq] at h; subst h; exact .nil
  | cons a as ih =>
    unfold mapRes at h
    cases ha : f a with
    | error e => rw [ha] at h; simp at h
    | ok b =>
      rw [ha] at h
      cases hm : mapRes f as with
      | error e => rw [hm] at h; simp at h
      | ok bs' =>
        rw [hm] at h
        simp only [Except.ok.injEq] at h
        subst h
        exact .cons ha (ih hm)

theorem foldRes_inv {σ α : Type} {f : σ → α → Res σ} {P : σ → List α → Prop} {s s' : σ} {as : List α}
    (hstep : ∀ s a rest s1, P s (a :: rest) → f s a = .ok s1 → P s1 rest) (h0 : P s as) (h : foldRes f s as = .ok s') : P s' [] := by
  induction as generalizing s with
  | nil => simp only [foldRes, Except.ok.injEq] at h; subst h; exact h0
  | cons a as ih =>
    unfold foldRes at h
    cases ha : f s a with
    | error e => rw [ha] at h; simp at h
    | ok s1 => rw [ha] at h; exact ih (hstep s a as s1 h0 ha) h

/-! ### Containers -/

theorem findKey_split {k v : Expr F} {l : List (Expr F × Expr F)} (h : findKey k l = some v) :
    ∃ l1 l2, l = l1 ++ (k, v) :: l2 ∧ (∀ w, setKey k w l = l1 ++ (k, w) :: l2) ∧ eraseKey k l = l1 ++ l2 := by
  induction l with
  | nil => simp [findKey] at h
  | cons x l ih =>
    obtain ⟨a, w⟩ := x
    rw [findKey] at h
    by_cases hk : identical a k = true
    · rw [if_pos hk] at h
      obtain rfl := eq_of_identical hk
      cases h
      refine ⟨[], l, rfl, fun u => ?_, ?_⟩
      · rw [setKey, if_pos hk]; rfl
      · rw [eraseKey, if_pos hk]; rfl
    · rw [if_neg hk] at h
      obtain ⟨l1, l2, rfl, h2, h3⟩ := ih h
      refine ⟨(a, w) :: l1, l2, rfl, fun u => ?_, ?_⟩
      · rw [setKey, if_neg hk, h2]; rfl
      · rw [eraseKey, if_neg hk, h3]; rfl

/-! ### Sums -/

mutual
theorem flatAdd_sum (ρ : Env F) : ∀ e : Expr F, sumO ((flatAdd e).map (eval ρ)) = eval ρ e
  | .node h as => by
    rw [flatAdd.eq_def]
    cases h
    case add => rw [flatAdds_sum ρ as]; exact (eval_add ρ as).symm
    all_goals simp [sumO_cons]
theorem flatAdds_sum (ρ : Env F) : ∀ es : List (Expr F), sumO ((flatAdds es).map (eval ρ)) = sumO (es.map (eval ρ))
  | [] => by rw [flatAdds]
  | a :: as => by rw [flatAdds, List.map_append, sumO_append, flatAdd_sum ρ a, flatAdds_sum ρ as]; rfl
end

mutual
theorem flatAdd_good : ∀ e : Expr F, Good e → ∀ t ∈ flatAdd e, Good t
  | .node h as => by
    intro hg t ht
    rw [flatAdd.eq_def] at ht
    cases h
    case add => exact flatAdds_good as (good_node.1 hg).2 t ht
    all_goals (simp only [List.mem_singleton] at ht; subst ht; exact hg)
theorem flatAdds_good : ∀ es : List (Expr F), (∀ e ∈ es, Good e) → ∀ t ∈ flatAdds es, Good t
  | [] => by intro _ t ht; rw [flatAdds] at ht; simp at ht
  | a :: as => by
    intro hg t ht
    rw [flatAdds, List.mem_append] at ht
    rcases ht with ht | ht
    · exact flatAdd_good a (hg a (by simp)) t ht
    · exact flatAdds_good as (fun e he => hg e (by simp [he])) t ht
end

/-- The value of a term of `addition_parts`. -/
noncomputable def termVal (ρ : Env F) (mc : Expr F × Expr F) : Option ℂ := mulO (eval ρ mc.2) (eval ρ mc.1)

/-- The value of `addition_parts`. -/
noncomputable def AddParts.val (ρ : Env F) (p : AddParts F) : Option ℂ := addO p.coeff.val (sumO (p.terms.map (termVal ρ)))

/-- A term of `addition_parts` as the code makes it. -/
def GoodTerm (mc : Expr F × Expr F) : Prop := Good mc.1 ∧ Good mc.2 ∧ isNumeric mc.1 = false

/-- `addition_parts` as the code makes it. -/
def AddParts.Fine (p : AddParts F) : Prop := p.coeff.Fine ∧ ∀ mc ∈ p.terms, GoodTerm mc

theorem mulO_add_left (a b m : Option ℂ) {z : ℂ} (h : addO (mulO a m) (mulO b m) = some z) : mulO (addO a b) m = some z := by
  cases a <;> cases b <;> cases m <;> simp [addO, mulO] at h ⊢
  rw [← h]; ring

theorem addTerm_ok {lic : Lic F} {ρ : Env F} {K : Ctors F} (hK : Sound lic ρ K) {p q : AddParts F} {t : Expr F} (hp : p.Fine) (ht : Good t)
    (h : addTerm K p t = .ok q) :
    q.Fine ∧ (lic.TrueAt ρ → ∀ z, addO (p.val ρ) (eval ρ t) = some z → q.val ρ = some z) := by
  unfold addTerm at h
  cases hc : Coeff.ofExpr t with
  | some c =>
    rw [hc] at h
    obtain ⟨hcf, hcv⟩ := ofExpr_ok ht hc ρ
    simp only at h
    cases ha : addCoeff p.coeff c with
    | error e => rw [ha] at h; simp at h
    | ok c' =>
      rw [ha] at h
      simp only [Except.ok.injEq] at h
      subst h
      obtain ⟨hf, hv⟩ := addCoeff_ok hp.1 hcf ha
      refine ⟨⟨hf, hp.2⟩, fun _ z hz => ?_⟩
      rw [addO_eq_some] at hz
      obtain ⟨x, y, hx, hy, rfl⟩ := hz
      rw [AddParts.val, addO_eq_some] at hx
      obtain ⟨u, v, hu, hv', rfl⟩ := hx
      show addO c'.val (sumO (p.terms.map (termVal ρ))) = _
      rw [hv u y hu (by rw [hcv, hy]), hv', addO_some]
      congr 1; ring
  | none =>
    rw [hc] at h
    simp only at h
    obtain ⟨hg1, hg2, hn1, hn2, _, hval⟩ := asCoeffMul_ok ht
    have hnn := hn2 (not_numeric_of_not_const hc)
    have hgt : GoodTerm ((asCoeffMul t).2, (asCoeffMul t).1) := ⟨hg2, hg1, hnn⟩
    cases hf : findKey (asCoeffMul t).2 p.terms with
    | none =>
      rw [hf] at h
      simp only [Except.ok.injEq] at h
      subst h
      refine ⟨⟨hp.1, fun mc hmc => ?_⟩, fun _ z hz => ?_⟩
      · rw [List.mem_append, List.mem_singleton] at hmc
        rcases hmc with hmc | rfl
        · exact hp.2 mc hmc
        · exact hgt
      · show addO p.coeff.val (sumO ((p.terms ++ [((asCoeffMul t).2, (asCoeffMul t).1)]).map (termVal ρ))) = _
        rw [List.map_append, sumO_append, ← addO_assoc]
        have h1 : sumO ([((asCoeffMul t).2, (asCoeffMul t).1)].map (termVal ρ)) = eval ρ t := by
          rw [List.map_singleton, sumO_cons, sumO_nil, addO_zero, termVal, hval ρ]
        rw [h1]; exact hz
    | some c0 =>
      rw [hf] at h
      simp only at h
      obtain ⟨l1, l2, hl, hset, _⟩ := findKey_split hf
      have hmem : ((asCoeffMul t).2, c0) ∈ p.terms := by rw [hl]; simp
      have hg0 := (hp.2 _ hmem).2.1
      cases ha : K.add [c0, (asCoeffMul t).1] with
      | error e => rw [ha] at h; simp at h
      | ok c' =>
        rw [ha] at h
        simp only [Except.ok.injEq] at h
        subst h
        obtain ⟨hgc, hvc⟩ := hK.add _ _ (by simp [hg0, hg1]) ha
        refine ⟨⟨hp.1, ?_⟩, fun hl' z hz => ?_⟩
        · show ∀ mc ∈ setKey (asCoeffMul t).2 c' p.terms, GoodTerm mc
          rw [hset]
          intro mc hmc
          rw [List.mem_append, List.mem_cons] at hmc
          rcases hmc with hmc | rfl | hmc
          · exact hp.2 mc (by rw [hl]; simp [hmc])
          · exact ⟨hg2, hgc, hnn⟩
          · exact hp.2 mc (by rw [hl]; simp [hmc])
        · show addO p.coeff.val (sumO ((setKey (asCoeffMul t).2 c' p.terms).map (termVal ρ))) = _
          rw [hset]
          rw [AddParts.val, hl, ← hval ρ] at hz
          rw [List.map_append, sumO_append, List.map_cons, sumO_cons] at hz ⊢
          rw [addO_eq_some] at hz
          obtain ⟨x, y, hx, hy, rfl⟩ := hz
          rw [addO_eq_some] at hx
          obtain ⟨x0, x1, hx0, hx1, rfl⟩ := hx
          rw [addO_eq_some] at hx1
          obtain ⟨s1, s2, hs1, hs2, rfl⟩ := hx1
          rw [addO_eq_some] at hs2
          obtain ⟨u, s3, hu, hs3, rfl⟩ := hs2
          have hm := mulO_add_left (eval ρ c0) (eval ρ (asCoeffMul t).1) (eval ρ (asCoeffMul t).2) (z := u + y)
            (by rw [addO_eq_some]; exact ⟨u, y, hu, hy, rfl⟩)
          rw [mulO_eq_some] at hm
          obtain ⟨c, m, hc', hm', e⟩ := hm
          have hc2 : eval ρ c' = some c := hvc hl' c (by simp only [List.map_cons, List.map_nil, sumO_cons, sumO_nil, addO_zero]; exact hc')
          have : termVal ρ ((asCoeffMul t).2, c') = some (u + y) := by
            rw [termVal, hc2, hm', mulO_some, e]
          rw [this, hx0, hs1, hs3, addO_some, addO_some, addO_some]
          congr 1; ring

theorem addTerms_ok {lic : Lic F} {ρ : Env F} {K : Ctors F} (hK : Sound lic ρ K) {ts : List (Expr F)} {p q : AddParts F} (hp : p.Fine)
    (ht : ∀ t ∈ ts, Good t) (h : foldRes (addTerm K) p ts = .ok q) :
    q.Fine ∧ (lic.TrueAt ρ → ∀ z, addO (p.val ρ) (sumO (ts.map (eval ρ))) = some z → q.val ρ = some z) := by
  induction ts generalizing p with
  | nil =>
    simp only [foldRes, Except.ok.injEq] at h; subst h
    exact ⟨hp, fun _ z hz => by simpa using hz⟩
  | cons t ts ih =>
    unfold foldRes at h
    cases ha : addTerm K p t with
    | error e => rw [ha] at h; simp at h
    | ok p1 =>
      rw [ha] at h
      obtain ⟨hf1, hv1⟩ := addTerm_ok hK hp (ht t (by simp)) ha
      obtain ⟨hf2, hv2⟩ := ih hf1 (fun u hu => ht u (by simp [hu])) h
      refine ⟨hf2, fun hl z hz => hv2 hl z ?_⟩
      rw [List.map_cons, sumO_cons, ← addO_assoc, addO_eq_some] at hz
      obtain ⟨x, y, hx, hy, rfl⟩ := hz
      rw [hv1 hl x hx, hy]; rfl

theorem sumOperand_ok {lic : Lic F} {ρ : Env F} {K : Ctors F} (hK : Sound lic ρ K) {mc : Expr F × Expr F} {r : Expr F} (hg : GoodTerm mc)
    (h : sumOperand K mc = .ok r) : Good r ∧ (lic.TrueAt ρ → ∀ z, termVal ρ mc = some z → eval ρ r = some z) := by
  unfold sumOperand at h
  by_cases h1 : isInt 1 mc.2 = true
  · rw [if_pos h1] at h
    simp only [Except.ok.injEq] at h
    subst h
    refine ⟨hg.1, fun _ z hz => ?_⟩
    rw [termVal, isInt_iff.1 h1, eval_int] at hz
    simpa using hz
  · rw [if_neg h1] at h
    have hm : ∀ (r : Expr F), K.mul [mc.1, mc.2] = .ok r → Good r ∧ (lic.TrueAt ρ → ∀ z, termVal ρ mc = some z → eval ρ r = some z) := by
      intro r hr
      obtain ⟨hgr, hv⟩ := hK.mul _ _ (by simp [hg.1, hg.2.1]) hr
      refine ⟨hgr, fun hl z hz => hv hl z ?_⟩
      rw [termVal, mulO_comm] at hz
      simpa [prodO_cons] using hz
    split at h
    · exact hm r h
    · exact hm r h
    · simp only [Except.ok.injEq] at h
      subst h
      exact ⟨good_newMul2 hg.2.1 hg.1 (Or.inr hg.2.2), fun _ z hz => by rw [eval_newMul2]; exact hz⟩

theorem sumOperands_ok {lic : Lic F} {ρ : Env F} {K : Ctors F} (hK : Sound lic ρ K) {l : List (Expr F × Expr F)} {ts : List (Expr F)}
    (hg : ∀ mc ∈ l, GoodTerm mc) (h : List.Forall₂ (fun a b => sumOperand K a = .ok b) l ts) :
    (∀ t ∈ ts, Good t) ∧ (lic.TrueAt ρ → ∀ z, sumO (l.map (termVal ρ)) = some z → sumO (ts.map (eval ρ)) = some z) := by
  induction h with
  | nil => exact ⟨by simp, fun _ z hz => by simpa using hz⟩
  | cons hab _ ih =>
    obtain ⟨hgr, hv⟩ := sumOperand_ok hK (hg _ (by simp)) hab
    obtain ⟨hgs, hvs⟩ := ih (fun mc hmc => hg mc (by simp [hmc]))
    refine ⟨by simpa [hgr] using hgs, fun hl z hz => ?_⟩
    rw [List.map_cons, sumO_cons_some] at hz ⊢
    obtain ⟨x, y, hx, hy, rfl⟩ := hz
    exact ⟨x, y, hv hl x hx, hvs hl y hy, rfl⟩

theorem eval_newSum (ρ : Env F) (ts : List (Expr F)) : eval ρ (newSum ts) = sumO (ts.map (eval ρ)) := by
  rcases ts with _ | ⟨a, _ | ⟨b, ts⟩⟩
  · simp [newSum]
  · simp [newSum, sumO_cons]
  · exact eval_sorted_add ρ _

theorem good_newSum {ts : List (Expr F)} (h : ∀ t ∈ ts, Good t) : Good (newSum ts) := by
  rcases ts with _ | ⟨a, _ | ⟨b, ts⟩⟩
  · exact good_zero
  · exact h a (by simp)
  · exact good_add.2 (fun t ht => h t ((sortTerms_perm _).mem_iff.1 ht))

theorem createSum_ok {lic : Lic F} {ρ : Env F} {K : Ctors F} (hK : Sound lic ρ K) {p : AddParts F} {r : Expr F} (hp : p.Fine)
    (h : createSum K p = .ok r) : Good r ∧ (lic.TrueAt ρ → ∀ z, p.val ρ = some z → eval ρ r = some z) := by
  unfold createSum at h
  cases hc : p.coeff.toExpr with
  | error e => rw [hc] at h; simp at h
  | ok c =>
    rw [hc] at h
    simp only at h
    obtain ⟨hgc, _, hvc⟩ := toExpr_ok hp.1 hc ρ
    by_cases hu : isUndef c = true
    · rw [if_pos hu] at h
      simp only [Except.ok.injEq] at h
      subst h
      refine ⟨good_undef, fun _ z hz => ?_⟩
      rw [AddParts.val, addO_eq_some] at hz
      obtain ⟨x, _, hx, _⟩ := hz
      have := hvc x hx
      rw [isUndef_iff.1 hu, eval_undef] at this
      simp at this
    · rw [if_neg hu] at h
      cases hm : mapRes (sumOperand K) (p.terms.filter (fun mc => !isInt 0 mc.2)) with
      | error e => rw [hm] at h; simp at h
      | ok ts =>
        rw [hm] at h
        simp only [Except.ok.injEq] at h
        subst h
        obtain ⟨hgs, hvs⟩ := sumOperands_ok hK (fun mc hmc => hp.2 mc (List.mem_filter.1 hmc).1) (mapRes_ok hm)
        refine ⟨?_, fun hl z hz => ?_⟩
        · apply good_newSum
          split
          · exact hgs
          · intro t ht
            rcases List.mem_cons.1 ht with rfl | ht
            · exact hgc
            · exact hgs t ht
        · rw [AddParts.val, addO_eq_some] at hz
          obtain ⟨x, y, hx, hy, rfl⟩ := hz
          have hy' := sumO_filter (termVal ρ) (fun mc => !isInt 0 mc.2) p.terms y (by
            intro mc _ hmc v hv
            have h0 : isInt 0 mc.2 = true := by simpa using hmc
            rw [termVal, isInt_iff.1 h0, eval_int, mulO_eq_some] at hv
            obtain ⟨a, b, ha, _, rfl⟩ := hv
            simp only [Option.some.injEq] at ha
            rw [← ha]; simp) hy
          have hys := hvs hl y hy'
          rw [eval_newSum]
          split
          · rename_i h0
            have := hvc x hx
            rw [isInt_iff.1 h0, eval_int] at this
            simp only [Option.some.injEq] at this
            rw [hys, ← this]; simp
          · rw [List.map_cons, sumO_cons, hvc x hx, hys, addO_some]

theorem fine_zero : (⟨.int 0, []⟩ : AddParts F).Fine := ⟨inI64_small (by decide) (by decide), by simp⟩

theorem sumGeneral_ok {lic : Lic F} {ρ : Env F} {K : Ctors F} (hK : Sound lic ρ K) {ts : List (Expr F)} {r : Expr F} (hg : ∀ t ∈ ts, Good t)
    (h : sumGeneral K ts = .ok r) : Good r ∧ (lic.TrueAt ρ → ∀ z, sumO (ts.map (eval ρ)) = some z → eval ρ r = some z) := by
  unfold sumGeneral at h
  cases hf : foldRes (addTerm K) ⟨.int 0, []⟩ (flatAdds ts) with
  | error e => rw [hf] at h; simp at h
  | ok p =>
    rw [hf] at h
    obtain ⟨hp, hv⟩ := addTerms_ok hK fine_zero (flatAdds_good ts hg) hf
    obtain ⟨hgr, hvr⟩ := createSum_ok hK hp h
    refine ⟨hgr, fun hl z hz => hvr hl z (hv hl z ?_)⟩
    rw [flatAdds_sum, AddParts.val]
    simpa [Coeff.val] using hz

theorem addTwo_ok {ρ : Env F} {a b : Expr F} {o : Option (Expr F)} (ha : Good a) (hb : Good b) (h : addTwo a b = .ok o) :
    ∀ r, o = some r → Good r ∧ ∀ z, addO (eval ρ a) (eval ρ b) = some z → eval ρ r = some z := by
  unfold addTwo at h
  have none_left : ∀ {r : Expr F}, Coeff.ofExpr a = some .undef ∨ Coeff.ofExpr a = some .zoo ∨ Coeff.ofExpr b = some .undef ∨ Coeff.ofExpr b = some .zoo →
      ∀ z, addO (eval ρ a) (eval ρ b) = some z → eval ρ r = some z := by
    intro r hc z hz
    exfalso
    rw [addO_eq_some] at hz
    obtain ⟨x, y, hx, hy, _⟩ := hz
    rcases hc with hc | hc | hc | hc
    · have := (ofExpr_ok ha hc ρ).2; rw [hx] at this; simp [Coeff.val] at this
    · have := (ofExpr_ok ha hc ρ).2; rw [hx] at this; simp [Coeff.val] at this
    · have := (ofExpr_ok hb hc ρ).2; rw [hy] at this; simp [Coeff.val] at this
    · have := (ofExpr_ok hb hc ρ).2; rw [hy] at this; simp [Coeff.val] at this
  split at h
  · rename_i x y hx hy
    obtain ⟨hxf, hxv⟩ := ofExpr_ok ha hx ρ
    obtain ⟨hyf, hyv⟩ := ofExpr_ok hb hy ρ
    cases hc : addCoeff x y with
    | error e => rw [hc] at h; simp at h
    | ok c =>
      rw [hc] at h
      simp only at h
      obtain ⟨hcf, hcv⟩ := addCoeff_ok hxf hyf hc
      cases ht : c.toExpr with
      | error e => rw [ht] at h; simp at h
      | ok r' =>
        rw [ht] at h
        simp only [Except.ok.injEq] at h
        subst h
        rintro r ⟨⟩
        obtain ⟨hgr, _, hvr⟩ := toExpr_ok hcf ht ρ
        refine ⟨hgr, fun z hz => ?_⟩
        rw [addO_eq_some] at hz
        obtain ⟨u, v, hu, hv, rfl⟩ := hz
        exact hvr _ (hcv u v (by rw [hxv, hu]) (by rw [hyv, hv]))
  · rename_i hx hy
    simp only [Except.ok.injEq] at h; subst h
    rintro r ⟨⟩
    exact ⟨good_undef, none_left (Or.inl hx)⟩
  · rename_i hx hy
    simp only [Except.ok.injEq] at h; subst h
    rintro r ⟨⟩
    exact ⟨good_undef, none_left (Or.inr (Or.inr (Or.inl hy)))⟩
  · rename_i hx hy
    simp only [Except.ok.injEq] at h; subst h
    rintro r ⟨⟩
    exact ⟨good_zoo, none_left (Or.inr (Or.inl hx))⟩
  · rename_i hx hy
    simp only [Except.ok.injEq] at h; subst h
    rintro r ⟨⟩
    exact ⟨good_zoo, none_left (Or.inr (Or.inr (Or.inr hy)))⟩
  · simp only [Except.ok.injEq] at h; subst h
    simp

theorem addFrom_ok {lic : Lic F} {ρ : Env F} {K : Ctors F} (hK : Sound lic ρ K) {ts : List (Expr F)} {r : Expr F} (hg : ∀ t ∈ ts, Good t)
    (h : addFrom K ts = .ok r) : Good r ∧ (lic.TrueAt ρ → ∀ z, sumO (ts.map (eval ρ)) = some z → eval ρ r = some z) := by
  rcases ts with _ | ⟨a, _ | ⟨b, _ | ⟨c, ts⟩⟩⟩
  · simp [addFrom] at h
  · simp only [addFrom, Except.ok.injEq] at h; subst h
    exact ⟨hg _ (by simp), fun _ z hz => by simpa [sumO_cons] using hz⟩
  · rw [addFrom] at h
    cases ht : addTwo a b with
    | error e => rw [ht] at h; simp at h
    | ok o =>
      rw [ht] at h
      cases o with
      | none => exact sumGeneral_ok hK hg h
      | some r' =>
        simp only [Except.ok.injEq] at h; subst h
        obtain ⟨hgr, hv⟩ := addTwo_ok (ρ := ρ) (hg a (by simp)) (hg b (by simp)) ht _ rfl
        exact ⟨hgr, fun _ z hz => hv z (by simpa [sumO_cons] using hz)⟩
  · exact sumGeneral_ok hK hg h

end Wf.Sym
