import Verif.Sym.EvaluateSpec
import Verif.Sym.SubstituteLemmas

/-! # Evaluation to numbers: lemmas -/

namespace Wf.Sym
open Complex Mat

variable {F : Type} [DecidableEq F] [FnSem F]

theorem val_zero : FloatSem.val (FloatOps.ofInt 0 : F) = some 0 := by
  rw [FloatSem.val_ofInt 0 (inI64_small (by decide) (by decide))]; simp
theorem val_one : FloatSem.val (FloatOps.ofInt 1 : F) = some 1 := by
  rw [FloatSem.val_ofInt 1 (inI64_small (by decide) (by decide))]; simp

/-- Without the flag, the conversion is the one that the functions use. -/
theorem complexCastWith_false (e : Expr F) : complexCastWith false e = complexCast e := by
  fun_induction complexCast e
  case case10 => unfold complexCastWith; split <;> simp_all
  all_goals simp_all [complexCastWith]

theorem complexCastWith_ok (ρ : Env F) {allow : Bool} {x : Expr F} {c : F × F} (hg : Good x) (h : complexCastWith allow x = some c) :
    ∀ z, eval ρ x = some z → FloatSem.val c.1 = some z.re ∧ FloatSem.val c.2 = some z.im := by
  have hz0 := val_zero (F := F)
  have hz1 := val_one (F := F)
  fun_induction complexCastWith allow x generalizing c with
  | case1 f =>
    cases h
    intro z hz
    rw [eval_flt] at hz
    obtain ⟨x, hx, rfl⟩ := flt_some hz
    exact ⟨by simpa using hx, by simpa using hz0⟩
  | case2 =>
    cases h
    intro z hz
    rw [eval_imag] at hz
    cases hz
    exact ⟨by simpa using hz0, by simpa using hz1⟩
  | case3 n =>
    cases h
    intro z hz
    rw [eval_int] at hz
    cases hz
    exact ⟨by simpa using FloatSem.val_ofInt n (good_int.1 hg), by simpa using hz0⟩
  | case4 => simp at h
  | case5 a b f m he hi =>
    obtain ⟨_, _, _, _, hv⟩ := asCoeffMul_mul hg
    have hv := hv ρ
    rw [he] at hv
    cases h
    intro z hz
    have hv : mulO (eval ρ (.flt f)) (eval ρ m) = some z := hv.trans hz
    rw [eval_flt, mulO_eq_some] at hv
    obtain ⟨u, v, hu, hv', rfl⟩ := hv
    obtain ⟨x, hx, rfl⟩ := flt_some hu
    have : m = .imag := isImag_iff.1 hi
    rw [this, eval_imag] at hv'
    cases hv'
    exact ⟨by simpa using hz0, by simpa using hx⟩
  | case6 => simp at h
  | case7 a b n m he hi =>
    obtain ⟨hgn, _, _, _, hv⟩ := asCoeffMul_mul hg
    have hv := hv ρ
    rw [he] at hv hgn
    cases h
    intro z hz
    have hv : mulO (eval ρ (.int n)) (eval ρ m) = some z := hv.trans hz
    rw [eval_int, mulO_eq_some] at hv
    obtain ⟨u, v, hu, hv', rfl⟩ := hv
    have : m = .imag := isImag_iff.1 hi
    rw [this, eval_imag] at hv'
    cases hv'
    cases hu
    exact ⟨by simpa using hz0, by simpa using FloatSem.val_ofInt n (good_int.1 hgn)⟩
  | case8 => simp at h
  | case9 => simp at h
  | case10 a b x y ha u v hb iha ihb =>
    cases h
    intro z hz
    have hg' := good_add.1 hg
    have hz : eval ρ (.add [a, b]) = some z := hz
    rw [eval_add, List.map_cons, sumO_cons_some] at hz
    obtain ⟨p, q, hp, hq, rfl⟩ := hz
    rw [List.map_cons, List.map_nil, sumO_cons, sumO_nil, addO_zero] at hq
    obtain ⟨h1, h2⟩ := iha (hg' a (by simp)) (by assumption) p hp
    obtain ⟨h3, h4⟩ := ihb (hg' b (by simp)) (by assumption) q hq
    exact ⟨FloatSem.val_add _ _ _ _ h1 h3, FloatSem.val_add _ _ _ _ h2 h4⟩
  | case11 => simp at h
  | case12 => simp at h

theorem numericalCast_other {e : Expr F} (hf : ∀ f, e ≠ .flt f) (hi : ∀ n, e ≠ .int n) :
    numericalCast e = (complexCastWith true e).map fun c => .cplx c.1 c.2 := by
  unfold numericalCast
  split
  · rename_i f; exact absurd rfl (hf f)
  · rename_i n; exact absurd rfl (hi n)
  · rfl

theorem numericalCast_ok (ρ : Env F) {e : Expr F} {v : Number F} (hg : Good e) (h : numericalCast e = some v) (z : ℂ) (hz : eval ρ e = some z) :
    v.val = some z := by
  by_cases hf : ∃ f, e = .flt f
  · obtain ⟨f, rfl⟩ := hf
    cases h
    rw [eval_flt] at hz
    exact hz
  by_cases hi : ∃ n, e = .int n
  · obtain ⟨n, rfl⟩ := hi
    cases h
    rw [eval_int] at hz
    exact hz
  rw [numericalCast_other (fun f h => hf ⟨f, h⟩) (fun n h => hi ⟨n, h⟩), Option.map_eq_some_iff] at h
  obtain ⟨c, hc, rfl⟩ := h
  obtain ⟨h1, h2⟩ := complexCastWith_ok ρ hg hc z hz
  simp [Number.val, h1, h2]

/-- The nodes of an expression that converts to a number. -/
theorem complexCastWith_nodes {allow : Bool} {x : Expr F} {c : F × F} (h : complexCastWith allow x = some c) : Over (fun h _ => h.ofNumber = true) x := by
  have leaf : ∀ {e : Expr F}, (isNumeric e = true ∨ e = .imag) → Over (fun h _ => h.ofNumber = true) e := by
    intro e he
    rcases he with he | rfl
    · unfold isNumeric at he
      split at he <;> first | exact over_node.2 ⟨rfl, by simp⟩ | cases he
    · exact over_node.2 ⟨rfl, by simp⟩
  have prod : ∀ {a b co m : Expr F}, asCoeffMul (.mul [a, b]) = (co, m) → isNumeric co = true → isImag m = true →
      Over (fun h _ => h.ofNumber = true) (.mul [a, b]) := by
    intro a b co m he hn hi
    have hi := isImag_iff.1 hi
    refine over_node.2 ⟨rfl, ?_⟩
    rw [asCoeffMul] at he
    cases ha : isNumeric a <;> cases hb : isNumeric b <;> simp only [ha, hb, Bool.not_true, Bool.not_false, Bool.and_true, Bool.and_false, Bool.false_eq_true, if_true, if_false, Bool.and_self] at he
    · exfalso
      simp only [splitMul, List.filter_cons, ha, hb, Bool.false_eq_true, if_false, List.filter_nil, if_true, Prod.mk.injEq] at he
      rw [← he.2] at hi; cases hi
    · cases he
      intro e he'
      simp only [List.mem_cons, List.not_mem_nil, or_false] at he'
      rcases he' with rfl | rfl
      · exact leaf (Or.inr hi)
      · exact leaf (Or.inl hb)
    · cases he
      intro e he'
      simp only [List.mem_cons, List.not_mem_nil, or_false] at he'
      rcases he' with rfl | rfl
      · exact leaf (Or.inl ha)
      · exact leaf (Or.inr hi)
    · intro e he'
      simp only [List.mem_cons, List.not_mem_nil, or_false] at he'
      rcases he' with rfl | rfl
      · exact leaf (Or.inl ha)
      · exact leaf (Or.inl hb)
  fun_induction complexCastWith allow x generalizing c with
  | case1 | case2 | case3 => exact over_node.2 ⟨rfl, by simp⟩
  | case5 a b f m he hi => exact prod he rfl hi
  | case7 a b n m he hi => exact prod he rfl hi
  | case10 a b x y ha u v hb iha ihb =>
    refine over_node.2 ⟨rfl, ?_⟩
    intro e he'
    simp only [List.mem_cons, List.not_mem_nil, or_false] at he'
    rcases he' with rfl | rfl
    · exact iha (by assumption)
    · exact ihb (by assumption)
  | _ => simp at h

theorem numericalCast_nodes {e : Expr F} {v : Number F} (h : numericalCast e = some v) : Over (fun h _ => h.ofNumber = true) e := by
  by_cases hf : ∃ f, e = .flt f
  · obtain ⟨f, rfl⟩ := hf; exact over_node.2 ⟨rfl, by simp⟩
  by_cases hi : ∃ n, e = .int n
  · obtain ⟨n, rfl⟩ := hi; exact over_node.2 ⟨rfl, by simp⟩
  rw [numericalCast_other (fun f h => hf ⟨f, h⟩) (fun n h => hi ⟨n, h⟩), Option.map_eq_some_iff] at h
  obtain ⟨c, hc, rfl⟩ := h
  exact complexCastWith_nodes hc

/-! ## Evaluation -/

section
variable {lic : Lic F} {ρ : Env F} {K : Ctors F}

theorem evaluate_ok (hK : Sound lic ρ K) {kf : SymConst → F} (hk : ExactConsts kf) (m : Nat) :
    ∀ (n : Nat) (e r : Expr F), Plain e → Good e → evaluate kf K m n e = .ok r → Carries lic ρ ρ e r
  | 0, _, _, _, _, h => by cases h
  | n + 1, .node hd as, r, hp, hg, h => by
    obtain ⟨hp1, hp2⟩ := plain_node.1 hp
    have hg2 := (good_node.1 hg).2
    have hR : ∀ x ∈ as, ∀ y, evaluate kf K m n x = .ok y → Carries lic ρ ρ x y := fun x hx y hy => evaluate_ok hK hk m n x y (hp2 x hx) (hg2 x hx) hy
    change evaluateBody kf K m (evaluate kf K m n) (.node hd as) = .ok r at h
    have hother : (if hd.isLeaf then .ok (.node hd as) else mapChildren K m (evaluate kf K m n) (.node hd as)) = Except.ok r →
        Carries lic ρ ρ (.node hd as) r := by
      intro h
      cases hl : hd.isLeaf with
      | true => simp only [hl, if_true, Except.ok.injEq] at h; subst h; exact ⟨hg, fun _ _ hz => hz⟩
      | false =>
        simp only [hl, Bool.false_eq_true, if_false] at h
        exact mapChildren_ok (ρ' := ρ) hK rfl (leaf_of_not_interp hp1 hl) hR h
    have hconst : ∀ (f : F) (x : ℝ), FloatSem.val f = some x → hd.isLeaf = true → eval ρ (.node hd []) = some (x : ℂ) → Except.ok (floatExpr f) = (Except.ok r : Res (Expr F)) →
        Carries lic ρ ρ (.node hd as) r := by
      intro f x hf hl he h
      cases h
      refine ⟨floatExpr_good _, fun _ z hz => ?_⟩
      cases as with
      | cons a as => rw [eval_leaf_args hl] at hz; cases hz
      | nil => rw [← hz, he, floatExpr_val hf]
    cases hd <;> first
      | exact hother h
      | (exfalso; cases h; done)
      | skip
    · rename_i n
      exact hconst _ (n : ℝ) (FloatSem.val_ofInt n (good_node.1 hg).1) rfl (by rw [show eval ρ (.node (.int n) []) = some (n : ℂ) from eval_int ρ n]; simp) h
    · rename_i q
      exact hconst _ (q.val : ℝ) (FloatSem.val_ofRat q (good_node.1 hg).1.1) rfl (by rw [show eval ρ (.node (.rat q) []) = some ((q.val : ℚ) : ℂ) from eval_rat ρ q]; simp) h
    · rename_i c
      exact hconst _ c.val (hk c) rfl (eval_const ρ c) h
end

/-! ## Arrays -/

theorem forall₂_get {α β : Type} {P : α → β → Prop} {as : List α} {bs : List β} (h : List.Forall₂ P as bs) {i : Nat} {a : α} (ha : as[i]? = some a) :
    ∃ b, bs[i]? = some b ∧ P a b := by
  induction h generalizing i with
  | nil => cases ha
  | cons hp _ ih =>
    cases i with
    | zero => cases ha; exact ⟨_, rfl, hp⟩
    | succ i => exact ih ha

theorem toComplex_val {v : Number F} {z : ℂ} (hn : ∀ n, v = .int n → InI64 n) (h : v.val = some z) : (Number.cplx v.toComplex.1 v.toComplex.2).val = some z := by
  cases v with
  | int n =>
    cases h
    have hn := hn n rfl
    simp only [Number.toComplex, Number.val, FloatSem.val_ofInt n hn, val_zero, Option.map_some, Option.bind_some]
    congr 1
  | dbl f =>
    simp only [Number.val, Option.map_eq_some_iff] at h
    obtain ⟨x, hx, rfl⟩ := h
    simp only [Number.toComplex, Number.val, hx, val_zero, Option.map_some, Option.bind_some]
    congr 1
  | cplx a b => exact h

theorem toDouble_val {v : Number F} {f : F} {z : ℂ} (hn : ∀ n, v = .int n → InI64 n) (hf : v.toDouble = .ok f) (h : v.val = some z) : (Number.dbl f).val = some z := by
  cases v with
  | int n =>
    cases h; cases hf
    have hn := hn n rfl
    simp [Number.val, FloatSem.val_ofInt n hn]
  | dbl f => cases hf; exact h
  | cplx a b => cases hf

theorem promote_ok {ns : List (Number F)} {d : Elements F} (hn : ∀ v ∈ ns, ∀ n, v = .int n → InI64 n) (h : promote ns = .ok d) :
    d.length = ns.length ∧ ∀ (i : Nat) v z, ns[i]? = some v → v.val = some z → ∃ w, d.get i = some w ∧ w.val = some z := by
  unfold promote at h
  split at h
  · cases h
    refine ⟨by simp [Elements.length], fun i v z hi hz => ⟨_, ?_, toComplex_val (hn v (List.mem_of_getElem? hi)) hz⟩⟩
    simp [Elements.get, hi]
  split at h
  · obtain ⟨l, hl, h⟩ := andThen_ok h
    cases h
    have hf := mapRes_forall (P := fun v f => v.toDouble = .ok f) hl (fun _ _ _ h => h)
    refine ⟨hf.length_eq.symm, fun i v z hi hz => ?_⟩
    obtain ⟨f, hf1, hf2⟩ := forall₂_get hf hi
    exact ⟨.dbl f, by simp [Elements.get, hf1], toDouble_val (hn v (List.mem_of_getElem? hi)) hf2 hz⟩
  · obtain ⟨l, hl, h⟩ := andThen_ok h
    cases h
    have hf := mapRes_forall (P := fun v f => v.toInt = .ok f) hl (fun _ _ _ h => h)
    refine ⟨hf.length_eq.symm, fun i v z hi hz => ?_⟩
    obtain ⟨f, hf1, hf2⟩ := forall₂_get hf hi
    refine ⟨.int f, by simp [Elements.get, hf1], ?_⟩
    cases v with
    | int n => cases hf2; exact hz
    | dbl f => cases hf2
    | cplx a b => cases hf2

theorem evalScalar_cast {e : Expr F} {v : Number F} (h : evalScalar e = .ok v) : numericalCast e = some v := by
  unfold evalScalar at h
  split at h
  · rename_i w hw; cases h; exact hw
  · cases h

theorem cast_int {e : Expr F} {n : Int} (hg : Good e) (h : numericalCast e = some (.int n)) : InI64 n := by
  by_cases hf : ∃ f, e = .flt f
  · obtain ⟨f, rfl⟩ := hf; cases h
  by_cases hi : ∃ n, e = .int n
  · obtain ⟨n, rfl⟩ := hi; cases h; exact good_int.1 hg
  rw [numericalCast_other (fun f h => hf ⟨f, h⟩) (fun n h => hi ⟨n, h⟩), Option.map_eq_some_iff] at h
  obtain ⟨c, hc, h⟩ := h
  cases h

theorem numpyFromMatrix_ok (ρ : Env F) {M : Mat (Expr F)} {A : NdArray F} (hg : ∀ e ∈ M.data, Good e) (h : numpyFromMatrix M = .ok A) : ArrayOf ρ M A := by
  unfold numpyFromMatrix at h
  obtain ⟨ns, hns, h⟩ := andThen_ok h
  obtain ⟨d, hd, h⟩ := andThen_ok h
  cases h
  have hf := mapRes_forall (P := fun e v => Good e ∧ numericalCast e = some v) hns (fun e he v h => ⟨hg e he, evalScalar_cast h⟩)
  have hint : ∀ v ∈ ns, ∀ n, v = .int n → InI64 n := by
    intro v hv n hn
    obtain ⟨i, hi⟩ := List.mem_iff_getElem?.1 hv
    obtain ⟨e, _, h1, h2⟩ := forall₂_get hf.flip hi
    exact cast_int h1 (hn ▸ h2)
  obtain ⟨h1, h2⟩ := promote_ok hint hd
  refine ⟨rfl, rfl, h1.trans hf.length_eq.symm, fun i e z hi hz => ?_⟩
  obtain ⟨v, hv, hge, hc⟩ := forall₂_get hf hi
  exact h2 i v z hv (numericalCast_ok ρ hge hc z hz)

theorem cast_int_eq {e : Expr F} {n : Int} (h : numericalCast e = some (.int n)) : e = .int n := by
  by_cases hf : ∃ f, e = .flt f
  · obtain ⟨f, rfl⟩ := hf; cases h
  by_cases hi : ∃ n, e = .int n
  · obtain ⟨n, rfl⟩ := hi; cases h; rfl
  rw [numericalCast_other (fun f h => hf ⟨f, h⟩) (fun n h => hi ⟨n, h⟩), Option.map_eq_some_iff] at h
  obtain ⟨c, hc, h⟩ := h
  cases h

theorem cast_dbl {e : Expr F} {f : F} (h : numericalCast e = some (.dbl f)) : e = .flt f := by
  by_cases hf : ∃ f, e = .flt f
  · obtain ⟨f, rfl⟩ := hf; cases h; rfl
  by_cases hi : ∃ n, e = .int n
  · obtain ⟨n, rfl⟩ := hi; cases h
  rw [numericalCast_other (fun f h => hf ⟨f, h⟩) (fun n h => hi ⟨n, h⟩), Option.map_eq_some_iff] at h
  obtain ⟨c, hc, h⟩ := h
  cases h

theorem cast_ints {es : List (Expr F)} {ns : List (Number F)} {l : List Int} (hf : List.Forall₂ (fun e v => numericalCast e = some v) es ns)
    (hl : List.Forall₂ (fun (v : Number F) f => v.toInt = .ok f) ns l) : es = l.map .int := by
  induction hf generalizing l with
  | nil => cases hl; rfl
  | @cons e v es vs h1 _ ih =>
    cases hl with
    | cons h2 h3 =>
      cases v with
      | int n => cases h2; rw [cast_int_eq h1, ih h3]; rfl
      | dbl f => cases h2
      | cplx a b => cases h2

theorem cast_doubles {es : List (Expr F)} {ns : List (Number F)} {l : List F} (hf : List.Forall₂ (fun e v => numericalCast e = some v) es ns)
    (hl : List.Forall₂ (fun (v : Number F) f => v.toDouble = .ok f) ns l) : List.Forall₂ RealConst es l := by
  induction hf generalizing l with
  | nil => cases hl; exact .nil
  | @cons e v es vs h1 _ ih =>
    cases hl with
    | cons h2 h3 =>
      refine .cons ?_ (ih h3)
      cases v with
      | int n => cases h2; rw [cast_int_eq h1]; exact .int n
      | dbl f => cases h2; rw [cast_dbl h1]; exact .flt _
      | cplx a b => cases h2

end Wf.Sym
