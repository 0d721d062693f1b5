import Verif.Sym.ProductLemmas

/-!
# The product with zero

If the other factor has a value for some assignment, the product with the integer zero is the integer zero: complex infinity, which would make it
undefined, does not occur.
-/

namespace Wf.Sym
open Complex

variable {F : Type} [DecidableEq F] [FloatSem F]

/-- The coefficient is zero. -/
def Coeff.IsZero (c : Coeff F) : Prop := c = .int 0 ∨ ∃ r : RatC, c = .rat r ∧ r.n = 0

theorem fltIsZero_of_val {f : F} (h : FloatSem.val f = some 0) : fltIsZero f = true := by
  unfold fltIsZero
  rw [LawfulFloat.eq_iff]
  by_contra hne
  have h0 : FloatSem.val (FloatOps.ofInt 0 : F) = some 0 := by
    rw [FloatSem.val_ofInt 0 (inI64_small (by decide) (by decide))]; simp
  rcases LawfulFloat.lt_total f (FloatOps.ofInt 0) hne with hl | hl
  · exact lt_irrefl _ ((FloatSem.lt_iff _ _ _ _ h h0).1 hl)
  · exact lt_irrefl _ ((FloatSem.lt_iff _ _ _ _ h0 h).1 hl)

/-- A coefficient that is the result of an operation and has the value zero. -/
theorem isZero_mulCoeff {a b c : Coeff F} {x y : ℂ} (ha : a.Fine) (hb : b.Fine) (hx : a.val = some x) (hy : b.val = some y) (hxy : x * y = 0)
    (h : mulCoeff a b = .ok c) : c.IsZero := by
  have hv := (mulCoeff_ok ha hb h).2 x y hx hy
  have hf := (mulCoeff_ok ha hb h).1
  rw [hxy] at hv
  cases c with
  | int n => left; simp only [Coeff.val, Option.some.injEq, Int.cast_eq_zero] at hv; rw [hv]
  | rat r =>
    right
    refine ⟨r, rfl, ?_⟩
    simp only [Coeff.val, Option.some.injEq] at hv
    have h1 : r.val = 0 := by exact_mod_cast hv
    unfold RatC.val at h1
    rw [div_eq_zero_iff] at h1
    have h3 : 0 < r.d := hf.2.2.1
    rcases h1 with h1 | h1
    · exact_mod_cast h1
    · have : r.d = 0 := by exact_mod_cast h1
      omega
  | flt f =>
    exfalso
    obtain ⟨u, hu, hu0⟩ := flt_some hv
    have hu1 : u = 0 := by exact_mod_cast hu0.symm
    subst hu1
    have hz := fltIsZero_of_val hu
    have key : ∀ g : F, fltCoeff g ≠ .flt f := by
      intro g hg
      unfold fltCoeff at hg
      by_cases h0 : fltIsZero g = true
      · rw [if_pos h0] at hg; cases hg
      · rw [if_neg h0] at hg
        simp only [Coeff.flt.injEq] at hg
        rw [hg] at h0; exact h0 hz
    cases a <;> cases b <;> simp only [mulCoeff, Except.ok.injEq] at h <;> first
      | exact key _ h
      | (obtain ⟨_, _, he⟩ := intCoeff_ok h; cases he)
      | (obtain ⟨_, _, he⟩ := ratCoeff_ok h; cases he)
      | (split at h <;> cases h; done)
      | (cases h; done)
  | zoo => simp [Coeff.val] at hv
  | undef => simp [Coeff.val] at hv

theorem Coeff.IsZero.val {c : Coeff F} (h : c.IsZero) : c.val = some 0 := by
  rcases h with rfl | ⟨r, rfl, hr⟩
  · simp [Coeff.val]
  · simp [Coeff.val, RatC.val, hr]

theorem Coeff.IsZero.toExpr {c : Coeff F} {e : Expr F} (hf : c.Fine) (h : c.IsZero) (he : c.toExpr = .ok e) : e = .int 0 := by
  rcases h with rfl | ⟨r, rfl, hr⟩
  · simp only [Coeff.toExpr, Except.ok.injEq] at he; exact he.symm
  · obtain ⟨he', _⟩ := ratExpr_ok (F := F) hf he
    have hd : r.d = 1 := by
      have hg : Int.gcd r.n r.d = 1 := hf.2.2.2
      have hp : 0 < r.d := hf.2.2.1
      rw [hr, Int.gcd_zero_left] at hg; omega
    rw [he', if_pos hd, hr]

/-- The loop of `create_multiplication` keeps a zero coefficient if all powers have values. -/
theorem createSteps_zero {lic : Lic F} {ρ : Env F} {K : Ctors F} (hK : Sound lic ρ K) (hl : lic.TrueAt ρ) {l : List (Expr F × Expr F)}
    {st st' : CreateSt F} (hst : StFine st) (hz : st.1.IsZero) (hg : ∀ be ∈ l, Good be.1 ∧ Good be.2)
    (hv : ∀ be ∈ l, ∃ z, entryVal ρ be = some z) (h : foldRes (createStep K) st l = .ok st') : StFine st' ∧ st'.1.IsZero := by
  induction l generalizing st with
  | nil => simp only [foldRes, Except.ok.injEq] at h; subst h; exact ⟨hst, hz⟩
  | cons be l ih =>
    unfold foldRes at h
    cases ha : createStep K st be with
    | error e => rw [ha] at h; simp at h
    | ok st1 =>
      rw [ha] at h
      unfold createStep at ha
      cases hp : K.pow be.1 be.2 with
      | error e => rw [hp] at ha; simp at ha
      | ok pw =>
        rw [hp] at ha
        change collectPower st pw = .ok st1 at ha
        obtain ⟨hb, he⟩ := hg be (by simp)
        obtain ⟨hgp, hvp⟩ := hK.pow _ _ _ hb he hp
        obtain ⟨z, hz1⟩ := hv be (by simp)
        have hpv := hvp hl z hz1
        obtain ⟨hf1, _⟩ := collectPower_ok (ρ := ρ) hst hgp ha
        refine ih hf1 ?_ (fun x hx => hg x (by simp [hx])) (fun x hx => hv x (by simp [hx])) h
        unfold collectPower at ha
        by_cases hc : hasNumericCoeff pw = true
        · rw [if_pos hc] at ha
          obtain ⟨hg1, hg2, hn1, hn2, hn3, hval⟩ := asCoeffMul_ok hgp
          obtain ⟨k, hk, hkf, hkv⟩ := numericOf_ok hg1 hn1
          rw [hk] at ha
          simp only at ha
          have := hval ρ
          rw [hpv, mulO_eq_some] at this
          obtain ⟨a, b, ha1, _, _⟩ := this
          cases hm : mulCoeff st.1 k with
          | error e => rw [hm] at ha; simp at ha
          | ok c' =>
            rw [hm] at ha
            simp only [Except.ok.injEq] at ha
            subst ha
            exact isZero_mulCoeff hst.1 hkf hz.val (by rw [hkv ρ, ha1]) (zero_mul a) hm
        · rw [if_neg hc] at ha
          simp only [Except.ok.injEq] at ha
          subst ha; exact hz

theorem prodO_forall {α : Type} {f : α → Option ℂ} {l : List α} {z : ℂ} (h : prodO (l.map f) = some z) : ∀ a ∈ l, ∃ w, f a = some w := by
  induction l generalizing z with
  | nil => simp
  | cons a l ih =>
    rw [List.map_cons, prodO_cons, mulO_eq_some] at h
    obtain ⟨x, y, hx, hy, _⟩ := h
    intro b hb
    rcases List.mem_cons.1 hb with rfl | hb
    · exact ⟨x, hx⟩
    · exact ih hy b hb

theorem sumO_forall {α : Type} {f : α → Option ℂ} {l : List α} {z : ℂ} (h : sumO (l.map f) = some z) : ∀ a ∈ l, ∃ w, f a = some w := by
  induction l generalizing z with
  | nil => simp
  | cons a l ih =>
    rw [List.map_cons, sumO_cons, addO_eq_some] at h
    obtain ⟨x, y, hx, hy, _⟩ := h
    intro b hb
    rcases List.mem_cons.1 hb with rfl | hb
    · exact ⟨x, hx⟩
    · exact ih hy b hb

theorem productGeneral_zero {lic : Lic F} {ρ : Env F} {K : Ctors F} (hK : Sound lic ρ K) (hl : lic.TrueAt ρ) {a r : Expr F} {z : ℂ}
    (hg : Good a) (hv : eval ρ a = some z) (h : productGeneral K lic [a, .int 0] = .ok r) : r = .int 0 := by
  unfold productGeneral at h
  simp only [foldRes] at h
  cases h1 : mulVisit K lic ⟨.int 1, []⟩ a with
  | error e => rw [h1] at h; simp at h
  | ok p =>
    simp only [h1] at h
    obtain ⟨hp, hpv⟩ := mulVisit_ok hK mulFine_one hg h1
    have hpv := hpv hl z (by rw [hv]; simp [MulParts.val, Coeff.val])
    rw [MulParts.val_eq, mulO_eq_some] at hpv
    obtain ⟨x, y, hx, hy, _⟩ := hpv
    have h2 : mulVisit K lic p (.int 0) = foldRes (mulTerm K lic) p [.int 0] := rfl
    simp only [h2, foldRes, mulTerm] at h
    rw [show Coeff.ofExpr (.int 0 : Expr F) = some (.int 0) from rfl] at h
    simp only at h
    cases h3 : mulCoeff p.coeff (.int 0) with
    | error e => rw [h3] at h; simp at h
    | ok c =>
      simp only [h3] at h
      have h0 : (Coeff.int 0 : Coeff F).Fine := inI64_small (by decide) (by decide)
      have hcz := isZero_mulCoeff hp.1 h0 hx (y := 0) (by simp [Coeff.val]) (mul_zero x) h3
      have hcf := (mulCoeff_ok hp.1 h0 h3).1
      unfold createProduct at h
      cases hf : foldRes (createStep K) (c, []) (p.terms.filter (fun be => !isInt 0 be.2)) with
      | error e => simp only [hf] at h; cases h
      | ok st =>
        simp only [hf] at h
        have hpart := createSteps_zero hK hl (st := (c, [])) ⟨hcf, by simp⟩ hcz (fun be hbe => hp.2 be (List.mem_filter.1 hbe).1)
          (fun be hbe => prodO_forall hy be (List.mem_filter.1 hbe).1) hf
        cases hc : st.1.toExpr with
        | error e => rw [hc] at h; simp at h
        | ok e =>
          rw [hc] at h
          simp only at h
          rw [hpart.2.toExpr hpart.1.1 hc] at h
          unfold finishProduct at h
          rw [if_pos (by rw [Bool.or_eq_true]; exact Or.inl (isInt_iff.2 rfl))] at h
          simp only [Except.ok.injEq] at h; exact h.symm

/-- A sum of zeros is zero. -/
theorem addFrom_zeros {K : Ctors F} {rs : List (Expr F)} {r : Expr F} (hr : ∀ t ∈ rs, t = .int 0) (h : addFrom K rs = .ok r) : r = .int 0 := by
  have hc0 : cadd 0 0 = .ok 0 := by decide
  have hgen : ∀ {rs : List (Expr F)}, (∀ t ∈ rs, t = .int 0) → sumGeneral K rs = .ok r → r = .int 0 := by
    intro rs hr h
    have hflat : ∀ {rs : List (Expr F)}, (∀ t ∈ rs, t = .int 0) → foldRes (addTerm K) ⟨.int 0, []⟩ (flatAdds rs) = .ok ⟨.int 0, []⟩ := by
      intro rs hr
      induction rs with
      | nil => rfl
      | cons t rs ih =>
        rw [hr t (by simp), flatAdds]
        show foldRes (addTerm K) ⟨.int 0, []⟩ (.int 0 :: flatAdds rs) = _
        unfold foldRes
        have : addTerm K ⟨.int 0, []⟩ (.int 0) = .ok ⟨.int 0, []⟩ := by
          unfold addTerm
          rw [show Coeff.ofExpr (.int 0 : Expr F) = some (.int 0) from rfl]
          simp [addCoeff, hc0, intCoeff]
        rw [this]
        exact ih (fun t ht => hr t (by simp [ht]))
    unfold sumGeneral at h
    rw [hflat hr] at h
    simp only [createSum, Coeff.toExpr, List.filter_nil, mapRes] at h
    rw [if_neg (by rw [isUndef_iff]; simp)] at h
    simp only [Except.ok.injEq] at h
    rw [if_pos (isInt_iff.2 rfl)] at h
    exact h.symm
  rcases rs with _ | ⟨a, _ | ⟨b, _ | ⟨c, rs⟩⟩⟩
  · simp [addFrom] at h
  · simp only [addFrom, Except.ok.injEq] at h
    rw [← h]; exact hr a (by simp)
  · obtain rfl := hr a (by simp)
    obtain rfl := hr b (by simp)
    have h2 : addTwo (.int 0 : Expr F) (.int 0) = .ok (some (.int 0)) := by
      unfold addTwo
      rw [show Coeff.ofExpr (.int 0 : Expr F) = some (.int 0) from rfl]
      simp [addCoeff, hc0, intCoeff, Coeff.toExpr]
    simp only [addFrom, h2, Except.ok.injEq] at h
    exact h.symm
  · exact hgen hr h

/-- The product with zero is zero if the other factor has a value somewhere. -/
theorem mul_zero_eq {lic : Lic F} {ρ : Env F} (hl : lic.TrueAt ρ) : ∀ (n : Nat) {a r : Expr F} {z : ℂ}, Good a → eval ρ a = some z →
    (ctors lic n).mul [a, .int 0] = .ok r → r = .int 0 := by
  intro n
  induction n with
  | zero => intro a r z _ _ h; cases h
  | succ n ih =>
    intro a r z hg hv h
    have hK := ctors_sound lic ρ n
    change mulTwo (ctors lic n) lic a (.int 0) = .ok r at h
    unfold mulTwo at h
    split at h
    · rename_i ts
      rw [if_pos (show isNumeric (.int 0 : Expr F) = true from rfl)] at h
      unfold mulIntoAdd at h
      cases hm : mapRes (fun t => (ctors lic n).mul [t, .int 0]) ts with
      | error e => rw [hm] at h; simp at h
      | ok rs =>
        rw [hm] at h
        simp only at h
        rw [eval_add] at hv
        have hts := sumO_forall hv
        have hrs : ∀ t ∈ rs, t = .int 0 := by
          have := mapRes_ok hm
          have hg' := good_add.1 hg
          clear hm h hv hg
          induction this with
          | nil => simp
          | cons hab _ ih2 =>
            intro t ht
            rcases List.mem_cons.1 ht with rfl | ht
            · obtain ⟨w, hw⟩ := hts _ List.mem_cons_self
              exact ih (hg' _ List.mem_cons_self) hw hab
            · exact ih2 (fun u hu => hts u (by simp [hu])) (fun u hu => hg' u (by simp [hu])) t ht
        cases n with
        | zero => cases h
        | succ n => exact addFrom_zeros hrs h
    · rename_i _ heq; cases heq
    · exact productGeneral_zero hK hl hg hv h

end Wf.Sym
