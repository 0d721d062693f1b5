import Verif.Sym.SubstituteLemmas

/-! # Replacing an expression by one of the same value: sums and powers -/

namespace Wf.Sym
open Complex

variable {F : Type} [DecidableEq F] [FnSem F]

section
variable {lic : Lic F} {ρ : Env F} {K : Ctors F}

theorem FnOk.trans {p r : Expr F} {v : Option ℂ} (h1 : FnOk lic ρ p v) (h2 : FnOk lic ρ r (eval ρ p)) : FnOk lic ρ r v :=
  ⟨h2.1, fun ht z hz => h2.2 ht z (h1.2 ht z hz)⟩

/-- The visitor keeps the value if the replacement has the value of the target and the partial replacements keep the value. -/
theorem single_ok {P : Head F → List (Expr F) → Prop} (hK : Sound lic ρ K) (hplain : ∀ h as, P h as → h.plain = true) {m : Nat} {t s : Expr F}
    (hs : Good s) (hv : lic.TrueAt ρ → ∀ z, eval ρ t = some z → eval ρ s = some z)
    (hpart : ∀ e r, Over P e → Good e → attemptPartial K lic m t s e = .ok r → Over P r ∧ FnOk lic ρ r (eval ρ e)) :
    ∀ (n : Nat) (e r : Expr F), Over P e → Good e → visitor (substBody K lic m t s) n e = .ok r → FnOk lic ρ r (eval ρ e)
  | 0, _, _, _, _, h => by cases h
  | n + 1, e, r, hp, hg, h => by
    change substBody K lic m t s (visitor (substBody K lic m t s) n) e = .ok r at h
    unfold substBody at h
    by_cases hi : identical t e = true
    · rw [if_pos hi] at h
      cases h
      rw [identical_iff] at hi
      subst hi
      exact ⟨hs, hv⟩
    · rw [if_neg hi] at h
      cases ha : attemptPartial K lic m t s e with
      | error x => simp [ha] at h
      | ok p =>
        simp only [ha] at h
        obtain ⟨h1, h2⟩ := hpart e p hp hg ha
        refine h2.trans ?_
        obtain ⟨hd, as⟩ := p
        obtain ⟨h3, h4⟩ := over_node.1 h1
        unfold descend at h
        by_cases hl : hd.isLeaf = true
        · rw [if_pos (by exact hl)] at h
          cases h
          exact self_ok _ h2.1
        · rw [if_neg (by exact hl)] at h
          exact mapChildren_ok (ρ' := ρ) hK rfl (leaf_of_not_interp (hplain _ _ h3) (by simpa using hl))
            (fun x hx y hy => single_ok hK hplain hs hv hpart n x y (h4 x hx) ((good_node.1 h2.1).2 x hx) hy) h

/-! ## Parts of a sum -/

theorem addPartsOf_ok (hK : Sound lic ρ K) {ts : List (Expr F)} {p : AddParts F} (hg : ∀ t ∈ ts, Good t) (h : addPartsOf K ts = .ok p) :
    p.Fine ∧ (lic.TrueAt ρ → ∀ z, sumO (ts.map (eval ρ)) = some z → p.val ρ = some z) := by
  unfold addPartsOf at h
  cases hf : foldRes (addTerm K) ⟨.int 0, []⟩ (flatAdds ts) with
  | error e => simp [hf] at h
  | ok q =>
    simp only [hf, Except.ok.injEq] at h
    subst h
    obtain ⟨hq, hv⟩ := addTerms_ok hK fine_zero (flatAdds_good ts hg) hf
    refine ⟨⟨hq.1, fun mc hmc => hq.2 mc (List.mem_filter.1 hmc).1⟩, fun hl z hz => ?_⟩
    have h1 := hv hl z (by
      rw [flatAdds_sum]
      simp only [AddParts.val, Coeff.val, List.map_nil, sumO_nil, Int.cast_zero]
      rw [hz]; simp [addO])
    rw [AddParts.val, addO_eq_some] at h1
    obtain ⟨x, y, hx, hy, rfl⟩ := h1
    show addO q.coeff.val (sumO ((q.terms.filter (fun mc => !isInt 0 mc.2)).map (termVal ρ))) = _
    rw [hx, sumO_filter (termVal ρ) (fun mc => !isInt 0 mc.2) q.terms y ?_ hy]
    · rfl
    · intro mc _ hmc v hv
      have h0 : isInt 0 mc.2 = true := by simpa using hmc
      rw [termVal, isInt_iff.1 h0, eval_int, mulO_eq_some] at hv
      obtain ⟨a, b, ha, _, rfl⟩ := hv
      simp only [Option.some.injEq] at ha
      rw [← ha]; simp

theorem createSumRaw_ok (hK : Sound lic ρ K) {p : AddParts F} {r : Expr F} (hp : p.Fine) (h : createSumRaw K p = .ok r) : FnOk lic ρ r (p.val ρ) := by
  unfold createSumRaw at h
  cases hc : p.coeff.toExpr with
  | error e => simp [hc] at h
  | ok c =>
    simp only [hc] at h
    obtain ⟨hgc, _, hvc⟩ := toExpr_ok hp.1 hc ρ
    by_cases hu : isUndef c = true
    · rw [if_pos hu] at h
      cases h
      refine ⟨good_undef, fun _ z hz => ?_⟩
      rw [AddParts.val, addO_eq_some] at hz
      obtain ⟨x, _, hx, _⟩ := hz
      have := hvc x hx
      rw [isUndef_iff.1 hu, eval_undef] at this
      simp at this
    · rw [if_neg hu] at h
      cases hm : mapRes (sumOperand K) p.terms with
      | error e => simp [hm] at h
      | ok ts =>
        simp only [hm, Except.ok.injEq] at h
        subst h
        obtain ⟨hgs, hvs⟩ := sumOperands_ok hK (fun mc hmc => hp.2 mc hmc) (mapRes_ok hm)
        refine ⟨?_, fun hl z hz => ?_⟩
        · apply good_newSum
          split
          · exact hgs
          · intro t ht
            rcases List.mem_cons.1 ht with rfl | ht
            · exact hgc
            · exact hgs t ht
        · rw [AddParts.val, addO_eq_some] at hz
          obtain ⟨x, y, hx, hy, rfl⟩ := hz
          have hys := hvs hl y hy
          rw [eval_newSum]
          split
          · rename_i h0
            have := hvc x hx
            rw [isInt_iff.1 h0, eval_int] at this
            simp only [Option.some.injEq] at this
            rw [hys, ← this]; simp
          · rw [List.map_cons, sumO_cons, hvc x hx, hys, addO_some]

theorem sumO_erase {k v : Expr F} {l : List (Expr F × Expr F)} (h : findKey k l = some v) {z : ℂ} (hz : sumO (l.map (termVal ρ)) = some z) :
    ∃ u, termVal ρ (k, v) = some u ∧ sumO ((eraseKey k l).map (termVal ρ)) = some (z - u) ∧
      ∀ w u', termVal ρ (k, w) = some u' → sumO ((setKey k w l).map (termVal ρ)) = some (z - u + u') := by
  obtain ⟨l1, l2, rfl, h2, h3⟩ := findKey_split h
  rw [List.map_append, sumO_append, List.map_cons, sumO_cons, addO_eq_some] at hz
  obtain ⟨a, b, ha, hb, rfl⟩ := hz
  rw [addO_eq_some] at hb
  obtain ⟨u, c, hu, hc, rfl⟩ := hb
  refine ⟨u, hu, ?_, fun w u' hw => ?_⟩
  · rw [h3, List.map_append, sumO_append, ha, hc, addO_some]
    congr 1; ring
  · rw [h2, List.map_append, sumO_append, List.map_cons, sumO_cons, ha, hc, hw, addO_some, addO_some]
    congr 1; ring

theorem removeTerms_ok : ∀ {tt it rest : List (Expr F × Expr F)}, removeTerms tt it = some rest → (∀ mc ∈ rest, mc ∈ it) ∧
    ∀ zi zt, sumO (it.map (termVal ρ)) = some zi → sumO (tt.map (termVal ρ)) = some zt → sumO (rest.map (termVal ρ)) = some (zi - zt)
  | [], it, rest, h => by
    rw [removeTerms, Option.some.injEq] at h
    subst h
    refine ⟨fun _ h => h, fun zi zt h1 h2 => ?_⟩
    simp only [List.map_nil, sumO_nil, Option.some.injEq] at h2
    rw [h1, ← h2, sub_zero]
  | (m, c) :: tt, it, rest, h => by
    rw [removeTerms] at h
    cases hf : findKey m it with
    | none => simp [hf] at h
    | some c' =>
      simp only [hf] at h
      by_cases hi : identical c' c = true
      · rw [if_pos hi] at h
        rw [identical_iff] at hi
        subst hi
        obtain ⟨h1, h2⟩ := removeTerms_ok h
        refine ⟨fun mc hmc => ?_, fun zi zt hzi hzt => ?_⟩
        · obtain ⟨l1, l2, rfl, _, h4⟩ := findKey_split hf
          have := h1 mc hmc
          rw [h4] at this
          simp only [List.mem_append, List.mem_cons] at this ⊢
          tauto
        · obtain ⟨u, hu, hu2, _⟩ := sumO_erase hf hzi
          rw [List.map_cons, sumO_cons_some] at hzt
          obtain ⟨a, b, ha, hb, rfl⟩ := hzt
          rw [ha, Option.some.injEq] at hu
          subst hu
          rw [h2 _ _ hu2 hb]
          congr 1; ring
      · rw [if_neg hi] at h; cases h

/-! ## Sums -/

theorem leftCoeff_exact {unit : Int} {ic tc c : Coeff F} (ht : tc.isFlt = false) (h : leftCoeff unit ic tc = some c) : c = ic := by
  unfold leftCoeff at h
  cases ic <;> cases tc <;> simp [Coeff.isFlt, Coeff.same] at ht h <;> first | exact h.symm | skip

theorem addFlat_ok (hK : Sound lic ρ K) {p q : AddParts F} {t : Expr F} (hp : p.Fine) (ht : Good t) (h : foldRes (addTerm K) p (flatAdd t) = .ok q) :
    q.Fine ∧ (lic.TrueAt ρ → ∀ z, addO (p.val ρ) (eval ρ t) = some z → q.val ρ = some z) := by
  obtain ⟨h1, h2⟩ := addTerms_ok hK hp (flatAdd_good t ht) h
  exact ⟨h1, fun hl z hz => h2 hl z (by rw [flatAdd_sum]; exact hz)⟩

theorem removeConst_ok (hK : Sound lic ρ K) {p q : AddParts F} {c : Coeff F} (hp : p.Fine) (hc : c.Fine) (hf : c.isFlt = false)
    (h : removeConst K p c = .ok q) : q.Fine ∧ (lic.TrueAt ρ → ∀ z v, p.val ρ = some z → c.val = some v → q.val ρ = some (z - v)) := by
  unfold removeConst at h
  rw [hf] at h
  simp only [Bool.false_eq_true, if_false] at h
  cases hx : c.toExpr with
  | error e => simp [hx] at h
  | ok x =>
    simp only [hx] at h
    cases hy : negE K x with
    | error e => simp [hy] at h
    | ok y =>
      simp only [hy] at h
      obtain ⟨hgx, _, hvx⟩ := toExpr_ok hc hx ρ
      obtain ⟨hgy, hvy⟩ := negE_ok hK (self_ok x hgx) hy
      obtain ⟨h1, h2⟩ := addFlat_ok hK hp hgy h
      refine ⟨h1, fun hl z v hz hv => h2 hl _ ?_⟩
      rw [hz, hvy hl (-v) (by rw [hvx v hv]; rfl), addO_some, sub_eq_add_neg]

theorem finishAddPartial_ok (hK : Sound lic ρ K) {p : AddParts F} {c : Coeff F} {s r : Expr F} (hp : p.Fine) (hc : c.Fine) (hf : c.isFlt = false)
    (hs : Good s) (h : finishAddPartial K p c s = .ok r) :
    Good r ∧ (lic.TrueAt ρ → ∀ z v w, p.val ρ = some z → c.val = some v → eval ρ s = some w → eval ρ r = some (z - v + w)) := by
  unfold finishAddPartial at h
  cases h1 : removeConst K p c with
  | error e => simp [h1] at h
  | ok p1 =>
    simp only [h1] at h
    cases h2 : foldRes (addTerm K) p1 (flatAdd s) with
    | error e => simp [h2] at h
    | ok p2 =>
      simp only [h2] at h
      obtain ⟨h3, h4⟩ := removeConst_ok hK hp hc hf h1
      obtain ⟨h5, h6⟩ := addFlat_ok hK h3 hs h2
      obtain ⟨h7, h8⟩ := createSumRaw_ok hK h5 h
      exact ⟨h7, fun hl z v w hz hv hw => h8 hl _ (h6 hl _ (by rw [h4 hl z v hz hv, hw, addO_some]))⟩

/-- The partial replacement of a sum keeps the value. -/
theorem addPartial_ok (hK : Sound lic ρ K) {ts cs : List (Expr F)} {s r : Expr F} {v : ℂ} (hts : ∀ t ∈ ts, Good t) (hcs : ∀ t ∈ cs, Good t) (hs : Good s)
    (hf : ∀ tp, addPartsOf K ts = .ok tp → tp.coeff.isFlt = false) (hv : eval ρ (.add ts) = some v) (hsv : eval ρ s = some v)
    (h : addPartial K ts s cs = .ok r) : FnOk lic ρ r (eval ρ (.add cs)) := by
  have hself : FnOk lic ρ (.add cs) (eval ρ (.add cs)) := self_ok _ (good_add.2 hcs)
  unfold addPartial at h
  cases h1 : addPartsOf K ts with
  | error e => simp [h1] at h
  | ok tp =>
    simp only [h1] at h
    cases h2 : addPartsOf K cs with
    | error e => simp [h2] at h
    | ok ip =>
      simp only [h2] at h
      have hf' := hf tp h1
      obtain ⟨ht1, ht2⟩ := addPartsOf_ok hK hts h1
      obtain ⟨hi1, hi2⟩ := addPartsOf_ok hK hcs h2
      cases h3 : leftCoeff 0 ip.coeff tp.coeff with
      | none => simp only [h3, Except.ok.injEq] at h; subst h; exact hself
      | some c =>
        simp only [h3] at h
        obtain rfl := leftCoeff_exact hf' h3
        cases h4 : removeTerms tp.terms ip.terms with
        | none => simp only [h4, Except.ok.injEq] at h; subst h; exact hself
        | some rest =>
          simp only [h4] at h
          obtain ⟨h5, h6⟩ := removeTerms_ok (ρ := ρ) h4
          obtain ⟨h7, h8⟩ := finishAddPartial_ok hK (p := ⟨ip.coeff, rest⟩) ⟨hi1.1, fun mc hmc => hi1.2 mc (h5 mc hmc)⟩ ht1.1 hf' hs h
          refine ⟨h7, fun hl z hz => ?_⟩
          have e1 := hi2 hl z (by rw [← eval_add]; exact hz)
          have e2 := ht2 hl v (by rw [← eval_add]; exact hv)
          rw [AddParts.val, addO_eq_some] at e1 e2
          obtain ⟨a, b, ha, hb, rfl⟩ := e1
          obtain ⟨a', b', ha', hb', e⟩ := e2
          rw [h8 hl (a + (b - b')) a' v ?_ ha' hsv, e]
          · congr 1; ring
          · rw [AddParts.val, addO_eq_some]
            exact ⟨a, b - b', ha, h6 _ _ hb hb', rfl⟩

/-! ## Powers -/

theorem mulPow_ok (hK : Sound lic ρ K) {a x b y r : Expr F} (ha : Good a) (hx : Good x) (hb : Good b) (hy : Good y) (h : mulPow K a x b y = .ok r) :
    FnOk lic ρ r (mulO (powO (eval ρ a) (eval ρ x)) (powO (eval ρ b) (eval ρ y))) := by
  unfold mulPow at h
  cases h1 : K.pow a x with
  | error e => simp [h1] at h
  | ok p =>
    simp only [h1] at h
    cases h2 : K.pow b y with
    | error e => simp [h2] at h
    | ok q =>
      simp only [h2] at h
      exact mul2_ok hK (hK.pow _ _ _ ha hx h1) (hK.pow _ _ _ hb hy h2) h

theorem subE_ok (hK : Sound lic ρ K) {a b r : Expr F} {u v : Option ℂ} (ha : FnOk lic ρ a u) (hb : FnOk lic ρ b v) (h : subE K a b = .ok r) :
    FnOk lic ρ r (addO u (v.map (-·))) := by
  unfold subE at h
  cases h1 : K.mul [.int (-1), b] with
  | error e => simp [h1] at h
  | ok m =>
    simp only [h1] at h
    have h2 := negE_ok hK hb (show negE K b = .ok m from h1)
    obtain ⟨h3, h4⟩ := hK.add [a, m] r (by simpa using ⟨ha.1, h2.1⟩) h
    refine ⟨h3, fun ht z hz => h4 ht z ?_⟩
    obtain ⟨x, y, hx, hy, rfl⟩ := addO_eq_some.1 hz
    simp [sumO_cons, ha.2 ht x hx, h2.2 ht y hy]

/-- `b ** (t * n + y)` from `(b ** t) ** n` and `b ** y`. -/
theorem pow_split {b t y : ℂ} {n : ℤ} (hb : b ≠ 0) : mulO (powO (powVal b t) (some (n : ℂ))) (powO (some b) (some y)) = powVal b (t * n + y) := by
  have h0 : b ^ t ≠ 0 := by rw [cpow_def_of_ne_zero hb]; exact exp_ne_zero _
  rw [powVal_of_ne hb, powO_some, powO_some, powVal_of_ne h0, powVal_of_ne hb, powVal_of_ne hb, mulO_some, cpow_add _ _ hb, cpow_intCast, cpow_mul_int]

theorem pow_times {b t : ℂ} {n : ℤ} (hb : b ≠ 0) : powO (powVal b t) (some (n : ℂ)) = powVal b (t * n) := by
  have h0 : b ^ t ≠ 0 := by rw [cpow_def_of_ne_zero hb]; exact exp_ne_zero _
  rw [powVal_of_ne hb, powO_some, powVal_of_ne h0, powVal_of_ne hb, cpow_intCast, cpow_mul_int]

theorem ratNormalized_val {r : RatC} {q : Int × RatC} (hr : r.Canonical) (h : ratNormalized r = .ok q) :
    InI64 q.1 ∧ q.2.Canonical ∧ (r.val : ℚ) = q.1 + q.2.val := by
  obtain ⟨h1, h2⟩ := ratNormalized_spec r hr
  rw [h1, Except.ok.injEq] at h
  subst h
  refine ⟨(tdiv_fits_pos hr.1 hr.2.2.1), h2, ?_⟩
  rw [canon_val]
  have hd : (r.d : ℚ) ≠ 0 := by exact_mod_cast hr.2.2.1.ne'
  have e : r.n = r.d * r.n.tdiv r.d + r.n.tmod r.d := (Int.mul_tdiv_add_tmod r.n r.d).symm
  have e' : (r.n : ℚ) = r.d * (r.n.tdiv r.d : Int) + (r.n.tmod r.d : Int) := by exact_mod_cast e
  rw [RatC.val]
  show (r.n : ℚ) / r.d = ((r.n.tdiv r.d : Int) : ℚ) + ((r.n.tmod r.d : Int) : ℚ) / r.d
  rw [e', add_div, mul_div_cancel_left₀ _ hd]

theorem good_int_of_rat {r : RatC} {q : Int × RatC} (hr : Good (.rat r : Expr F)) (h : ratNormalized r = .ok q) : Good (.int q.1 : Expr F) :=
  good_int.2 (ratNormalized_val (good_rat.1 hr).1 h).1

/-- The quotient of two expressions with values. -/
theorem quotient_ok (hK : Sound lic ρ K) {a b q : Expr F} (ha : Good a) (hb : Good b) (h : divE K a b = .ok q)
    {y : ℂ} (hy : eval ρ b = some y) (hy0 : y ≠ 0) : FnOk lic ρ q ((eval ρ a).map (· * y⁻¹)) :=
  divE_ok hK hy0 (self_ok a ha) (by rw [← hy]; exact self_ok b hb) h

theorem powPartialMul_ok (hK : Sound lic ρ K) {b te ce s r : Expr F} {v x y : ℂ} (hb : Good b) (hte : Good te) (hce : Good ce) (hs : Good s)
    (hx : eval ρ b = some x) (hx0 : x ≠ 0) (hy : eval ρ te = some y) (hy0 : y ≠ 0) (hv : powVal x y = some v) (hsv : eval ρ s = some v)
    (h : powPartialMul K (.pow b ce) b s te ce = .ok r) : FnOk lic ρ r (eval ρ (.pow b ce)) := by
  have hself : FnOk lic ρ (.pow b ce) (eval ρ (.pow b ce)) := self_ok _ (good_pow.2 ⟨hb, hce⟩)
  have hz : ∀ z, eval ρ (.pow b ce) = some z → ∃ c, eval ρ ce = some c ∧ powVal x c = some z := by
    intro z hz
    rw [eval_pow, hx, powO_eq_some] at hz
    obtain ⟨x', c, hx', hc, e⟩ := hz
    cases hx'
    exact ⟨c, hc, e⟩
  unfold powPartialMul at h
  cases hq : divE K ce te with
  | error e => simp [hq] at h
  | ok q =>
    simp only [hq] at h
    obtain ⟨hq1, hq2⟩ := quotient_ok hK hce hte hq hy hy0
    split at h
    · cases ‹Except.ok q = Except.error _›
    · rename_i n hn
      cases hn
      have h1 := hK.pow _ _ _ hs hq1 h
      refine ⟨h1.1, fun hl z hz' => ?_⟩
      obtain ⟨c, hc, e⟩ := hz z hz'
      have h2 := hq2 hl (c * y⁻¹) (by rw [hc]; rfl)
      rw [eval_int, Option.some.injEq] at h2
      refine h1.2 hl z ?_
      rw [eval_int, hsv, ← hv, pow_times hx0, h2, ← e]
      congr 1; field_simp
    · rename_i q0 hq0
      cases hq0
      cases hn : ratNormalized q0 with
      | error e => simp [hn] at h
      | ok w =>
        simp only [hn] at h
        by_cases h0 : w.1 = 0
        · rw [if_pos h0] at h; cases h; exact hself
        · rw [if_neg h0] at h
          cases hf : (ratExpr w.2 : Res (Expr F)) with
          | error e => simp [hf] at h
          | ok f =>
            simp only [hf] at h
            cases hm : K.mul [te, f] with
            | error e => simp [hm] at h
            | ok g =>
              simp only [hm] at h
              obtain ⟨h1, h2, h3⟩ := ratNormalized_val (good_rat.1 hq1).1 hn
              obtain ⟨_, h4, h5, _⟩ := ratExpr_ok h2 hf
              have h6 := mul2_ok hK (self_ok te hte) (self_ok f h4) hm
              have h7 := mulPow_ok hK hs (good_int.2 h1) hb h6.1 h
              refine ⟨h7.1, fun hl z hz' => h7.2 hl z ?_⟩
              obtain ⟨c, hc, e⟩ := hz z hz'
              have h8 := hq2 hl (c * y⁻¹) (by rw [hc]; rfl)
              rw [eval_rat, Option.some.injEq] at h8
              rw [h6.2 hl (y * ((w.2.val : ℚ) : ℂ)) (by rw [hy, h5 ρ]; rfl), hsv, ← hv, hx, eval_int, pow_split hx0, ← e]
              congr 1
              have h9 : ((q0.val : ℚ) : ℂ) = w.1 + ((w.2.val : ℚ) : ℂ) := by rw [h3]; push_cast; rfl
              rw [← mul_add, ← h9, h8]; field_simp
    · cases h; exact hself

theorem powPartialSum_ok (hK : Sound lic ρ K) {b te s r c0 : Expr F} {es : List (Expr F)} {p : AddParts F} {v x y : ℂ} (hb : Good b) (hte : Good te)
    (hes : ∀ t ∈ es, Good t) (hs : Good s) (hx : eval ρ b = some x) (hx0 : x ≠ 0) (hy : eval ρ te = some y) (hy0 : y ≠ 0) (hv : powVal x y = some v)
    (hsv : eval ρ s = some v) (hp : addPartsOf K es = .ok p) (hf : findKey (asCoeffMul te).2 p.terms = some c0)
    (h : powPartialSum K (.pow b (.add es)) b s (asCoeffMul te).1 (asCoeffMul te).2 p c0 = .ok r) : FnOk lic ρ r (eval ρ (.pow b (.add es))) := by
  have hself : FnOk lic ρ (.pow b (.add es)) (eval ρ (.pow b (.add es))) := self_ok _ (good_pow.2 ⟨hb, good_add.2 hes⟩)
  obtain ⟨hp1, hp2⟩ := addPartsOf_ok hK hes hp
  obtain ⟨ht1, ht2, _, _, _, ht3⟩ := asCoeffMul_ok hte
  have ht4 := ht3 ρ
  rw [hy, mulO_eq_some] at ht4
  obtain ⟨tc, tm, htc, htm, rfl⟩ := ht4
  have hc0 : Good c0 := (hp1.2 _ (findKey_mem hf)).2.1
  have hm : isNumeric (asCoeffMul te).2 = false := (hp1.2 _ (findKey_mem hf)).2.2
  have hz : lic.TrueAt ρ → ∀ z, eval ρ (.pow b (.add es)) = some z → ∃ k a d, p.coeff.val = some k ∧ eval ρ c0 = some a ∧ powVal x (k + d) = some z ∧
      sumO (p.terms.map (termVal ρ)) = some d := by
    intro hl z hz
    rw [eval_pow, hx, powO_eq_some] at hz
    obtain ⟨x', c, hx', hc, e⟩ := hz
    cases hx'
    have h1 := hp2 hl c (by rw [← eval_add]; exact hc)
    rw [AddParts.val, addO_eq_some] at h1
    obtain ⟨k, d, hk, hd, rfl⟩ := h1
    obtain ⟨u, hu, _⟩ := sumO_erase hf hd
    rw [termVal, mulO_eq_some] at hu
    obtain ⟨a, m', ha, _, _⟩ := hu
    exact ⟨k, a, d, hk, ha, e, hd⟩
  have htc0 : tc ≠ 0 := left_ne_zero_of_mul hy0
  unfold powPartialSum at h
  cases hq : divE K c0 (asCoeffMul te).1 with
  | error e => simp [hq] at h
  | ok q =>
    simp only [hq] at h
    obtain ⟨hq1, hq2⟩ := quotient_ok hK hc0 ht1 hq htc htc0
    split at h
    · cases ‹Except.ok q = Except.error _›
    · rename_i n hn
      cases hn
      split at h
      · cases h
      · rename_i g hg
        obtain ⟨l1, l2, hl12, _, he⟩ := findKey_split hf
        have h1 := createSumRaw_ok hK (p := { p with terms := eraseKey (asCoeffMul te).2 p.terms })
          ⟨hp1.1, fun mc hmc => hp1.2 mc (by rw [hl12]; simp only [he] at hmc; simp only [List.mem_append, List.mem_cons] at hmc ⊢; tauto)⟩ hg
        have h2 := mulPow_ok hK hs hq1 hb h1.1 h
        refine ⟨h2.1, fun hl z hz' => h2.2 hl z ?_⟩
        obtain ⟨k, a, d, hk, ha, e, hd⟩ := hz hl z hz'
        obtain ⟨u, hu, hu2, _⟩ := sumO_erase hf hd
        rw [termVal, ha, htm, mulO_some, Option.some.injEq] at hu
        have h3 := hq2 hl (a * tc⁻¹) (by rw [ha]; rfl)
        rw [eval_int, Option.some.injEq] at h3
        have h4 := h1.2 hl (k + (d - u)) (by rw [AddParts.val, addO_eq_some]; exact ⟨_, _, hk, hu2, rfl⟩)
        rw [h4, hsv, ← hv, hx, eval_int, pow_split hx0, ← e]
        congr 1
        rw [h3, ← hu]; field_simp; ring
    · rename_i q0 hq0
      cases hq0
      cases hn : ratNormalized q0 with
      | error e => simp [hn] at h
      | ok w =>
        simp only [hn] at h
        by_cases h0 : w.1 = 0
        · rw [if_pos h0] at h; cases h; exact hself
        · rw [if_neg h0] at h
          cases hm1 : K.mul [(asCoeffMul te).1, .int w.1] with
          | error e => simp [hm1] at h
          | ok g =>
            simp only [hm1] at h
            cases hm2 : subE K c0 g with
            | error e => simp [hm2] at h
            | ok c1 =>
              simp only [hm2] at h
              cases hm3 : createSumRaw K { p with terms := setKey (asCoeffMul te).2 c1 p.terms } with
              | error e => simp [hm3] at h
              | ok g' =>
                simp only [hm3] at h
                obtain ⟨h1, _, _⟩ := ratNormalized_val (good_rat.1 hq1).1 hn
                have h4 := mul2_ok hK (self_ok _ ht1) (int_ok h1) hm1
                have h5 := subE_ok hK (self_ok c0 hc0) h4 hm2
                obtain ⟨l1, l2, hl12, hset, _⟩ := findKey_split hf
                have h6 := createSumRaw_ok hK (p := { p with terms := setKey (asCoeffMul te).2 c1 p.terms })
                  ⟨hp1.1, fun mc hmc => by
                    simp only [hset] at hmc
                    simp only [List.mem_append, List.mem_cons] at hmc
                    rcases hmc with hmc | rfl | hmc
                    · exact hp1.2 mc (by rw [hl12]; simp [hmc])
                    · exact ⟨ht2, h5.1, hm⟩
                    · exact hp1.2 mc (by rw [hl12]; simp [hmc])⟩ hm3
                have h7 := mulPow_ok hK hs (good_int.2 h1) hb h6.1 h
                refine ⟨h7.1, fun hl z hz' => h7.2 hl z ?_⟩
                obtain ⟨k, a, d, hk, ha, e, hd⟩ := hz hl z hz'
                obtain ⟨u, hu, _, hu3⟩ := sumO_erase hf hd
                rw [termVal, ha, htm, mulO_some, Option.some.injEq] at hu
                have h8 := h5.2 hl (a + -(tc * w.1)) (by rw [ha, htc]; rfl)
                have h9 := hu3 c1 ((a + -(tc * w.1)) * tm) (by rw [termVal, h8, htm]; rfl)
                have h10 := h6.2 hl _ (by rw [AddParts.val, addO_eq_some]; exact ⟨_, _, hk, h9, rfl⟩)
                rw [h10, hsv, ← hv, hx, eval_int, pow_split hx0, ← e]
                congr 1
                rw [← hu]; ring
    · cases h; exact hself

/-- The partial replacement of a power keeps the value. -/
theorem powPartial_ok (hK : Sound lic ρ K) {tb te s cb ce r : Expr F} {v y : ℂ} (htb : Good tb) (hte : Good te) (hcb : Good cb) (hce : Good ce)
    (hs : Good s) (hv : eval ρ (.pow tb te) = some v) (hv0 : v ≠ 0) (hy : eval ρ te = some y) (hy0 : y ≠ 0) (hsv : eval ρ s = some v)
    (h : powPartial K tb te s cb ce = .ok r) : FnOk lic ρ r (eval ρ (.pow cb ce)) := by
  have hself : FnOk lic ρ (.pow cb ce) (eval ρ (.pow cb ce)) := self_ok _ (good_pow.2 ⟨hcb, hce⟩)
  rw [eval_pow, powO_eq_some] at hv
  obtain ⟨x, y', hx, hy', hv⟩ := hv
  rw [hy] at hy'
  cases hy'
  have hx0 : x ≠ 0 := by
    rcases powVal_cases hv with ⟨h, _⟩ | ⟨_, _, h⟩
    · exact h
    · exact absurd h hv0
  unfold powPartial at h
  by_cases hi : identical tb cb = true
  · rw [if_pos hi] at h
    rw [identical_iff] at hi
    subst hi
    split at h
    · rename_i es
      cases hp : addPartsOf K es with
      | error e => simp [hp] at h
      | ok p =>
        simp only [hp] at h
        cases hf : findKey (asCoeffMul te).2 p.terms with
        | none => simp only [hf, Except.ok.injEq] at h; subst h; exact hself
        | some c0 =>
          simp only [hf] at h
          exact powPartialSum_ok hK htb hte (good_add.1 hce) hs hx hx0 hy hy0 hv hsv hp hf h
    · exact powPartialMul_ok hK htb hte hce hs hx hx0 hy hy0 hv hsv h
  · rw [if_neg hi] at h; cases h; exact hself

end

/-! ## The results are plain -/

section
variable {K : Ctors F}

theorem over_addPartsOf (hK : Closed (fun h _ => h.plain = true) K) {ts : List (Expr F)} {p : AddParts F} (ht : ∀ t ∈ ts, Plain t)
    (h : addPartsOf K ts = .ok p) : OverT (fun h _ => h.plain = true) p.terms := by
  unfold addPartsOf at h
  cases hf : foldRes (addTerm K) ⟨.int 0, []⟩ (flatAdds ts) with
  | error e => simp [hf] at h
  | ok q =>
    simp only [hf, Except.ok.injEq] at h
    subst h
    have h1 : OverA (fun h _ => h.plain = true) q.terms := overT_fold (Q := fun p : AddParts F => OverA (fun h _ => h.plain = true) p.terms) (R := Plain)
      (fun s a s1 => over_addTerm plain_basic hK s a s1) (by simp [OverA, OverT]) (over_flatAdds plain_basic ts ht) hf
    exact fun be hbe => h1.1 be (List.mem_filter.1 hbe).1

theorem plain_addTerm (hK : Closed (fun h _ => h.plain = true) K) (p : AddParts F) (t : Expr F) (q : AddParts F)
    (hp : OverT (fun h _ => h.plain = true) p.terms) (ht : Plain t) (h : addTerm K p t = .ok q) : OverT (fun h _ => h.plain = true) q.terms := by
  unfold addTerm at h
  have h2 := over_asCoeffMul plain_basic ht
  split at h
  · split at h
    · cases h
    · cases h; exact hp
  · split at h
    · cases h
      exact overT_append hp h2.2 h2.1
    · rename_i c0 hf
      have h3 := overT_find hp hf
      split at h
      · cases h
      · rename_i c' hc
        cases h
        exact h3.2.2 c' (hK.add _ _ (by simpa using ⟨h3.1, h2.1⟩) hc)

theorem plain_sorted_mul {ts : List (Expr F)} (h : ∀ t ∈ ts, Plain t) : Plain (.mul (sortTerms ts)) :=
  plain_node.2 ⟨rfl, (over_sorted plain_basic).2 h⟩

theorem plain_createSumRaw (hK : Closed (fun h _ => h.plain = true) K) {p : AddParts F} {r : Expr F} (hp : OverT (fun h _ => h.plain = true) p.terms)
    (h : createSumRaw K p = .ok r) : Plain r := by
  unfold createSumRaw at h
  split at h
  · cases h
  · rename_i c hc
    split at h
    · cases h; exact plain_basic.oundef
    · split at h
      · cases h
      · rename_i ts hts
        cases h
        have h1 := over_mapRes (P := fun h _ => h.plain = true) hts fun mc hmc b hb => by
          unfold sumOperand at hb
          split at hb
          · cases hb; exact (hp mc hmc).1
          · split at hb
            · exact hK.mul _ _ (by simpa using hp mc hmc) hb
            · exact hK.mul _ _ (by simpa using hp mc hmc) hb
            · cases hb; exact plain_sorted_mul (by
                intro t ht
                simp only [List.mem_cons, List.not_mem_nil, or_false] at ht
                rcases ht with rfl | rfl
                · exact (hp mc hmc).2
                · exact (hp mc hmc).1)
        apply over_newSum plain_basic
        split
        · exact h1
        · intro t ht
          rcases List.mem_cons.1 ht with rfl | ht
          · exact over_toExpr plain_basic hc
          · exact h1 t ht

theorem plain_addFlat (hK : Closed (fun h _ => h.plain = true) K) {p q : AddParts F} {t : Expr F} (hp : OverT (fun h _ => h.plain = true) p.terms)
    (ht : Plain t) (h : foldRes (addTerm K) p (flatAdd t) = .ok q) : OverT (fun h _ => h.plain = true) q.terms :=
  overT_fold (Q := fun p : AddParts F => OverT (fun h _ => h.plain = true) p.terms) (R := Plain) (fun s a s1 => plain_addTerm hK s a s1) hp
    (over_flatAdd plain_basic t ht) h

theorem plain_addPartial (hK : Closed (fun h _ => h.plain = true) K) {ts cs : List (Expr F)} {s r : Expr F} (hcs : ∀ t ∈ cs, Plain t) (hs : Plain s)
    (h : addPartial K ts s cs = .ok r) : Plain r := by
  have hself : Plain (.add cs) := plain_node.2 ⟨rfl, hcs⟩
  unfold addPartial at h
  split at h
  · cases h
  · split at h
    · cases h
    · rename_i tp _ ip hip
      have h1 := over_addPartsOf hK hcs hip
      split at h
      · cases h; exact hself
      · split at h
        · cases h; exact hself
        · rename_i c _ _ rest hrest
          have h2 := (removeTerms_ok (ρ := (⟨fun _ => none, fun _ _ => none, fun _ _ => none⟩ : Env F)) hrest).1
          unfold finishAddPartial at h
          split at h
          · cases h
          · rename_i p1 hp1
            have h3 : OverT (fun h _ => h.plain = true) p1.terms := by
              have h0 : OverT (fun h _ => h.plain = true) (⟨c, rest⟩ : AddParts F).terms := fun be hbe => h1 be (h2 be hbe)
              unfold removeConst at hp1
              split at hp1
              · cases hp1; exact h0
              · split at hp1
                · cases hp1
                · rename_i x hx
                  split at hp1
                  · cases hp1
                  · rename_i y hy
                    exact plain_addFlat hK h0 (over_negE plain_basic hK (over_toExpr plain_basic hx) hy) hp1
            split at h
            · cases h
            · rename_i p2 hp2
              exact plain_createSumRaw hK (plain_addFlat hK h3 hs hp2) h

theorem plain_mulPow {P : Head F → List (Expr F) → Prop} (hK : Closed P K) {a x b y r : Expr F} (ha : Over P a) (hx : Over P x) (hb : Over P b)
    (hy : Over P y) (h : mulPow K a x b y = .ok r) : Over P r := by
  unfold mulPow at h
  split at h
  · cases h
  · rename_i p hp
    split at h
    · cases h
    · rename_i q hq
      exact hK.mul _ _ (by simpa using ⟨hK.pow _ _ _ ha hx hp, hK.pow _ _ _ hb hy hq⟩) h

theorem over_subE {P : Head F → List (Expr F) → Prop} (hP : Basic P) (hK : Closed P K) {a b r : Expr F} (ha : Over P a) (hb : Over P b)
    (h : subE K a b = .ok r) : Over P r := by
  unfold subE at h
  split at h
  · cases h
  · rename_i m hm
    exact hK.add _ _ (by simpa using ⟨ha, hK.mul _ _ (by simpa using ⟨hP.oint (-1), hb⟩) hm⟩) h

theorem plain_powPartial (hK : Closed (fun h _ => h.plain = true) K) {tb te s cb ce r : Expr F} (hte : Plain te) (hcb : Plain cb) (hce : Plain ce)
    (hs : Plain s) (h : powPartial K tb te s cb ce = .ok r) : Plain r := by
  have hself : Plain (.pow cb ce) := plain_basic.opow.2 ⟨hcb, hce⟩
  have hcm := over_asCoeffMul plain_basic hte
  unfold powPartial at h
  split at h
  · split at h
    · rename_i es
      split at h
      · cases h
      · rename_i p hp
        have h1 := over_addPartsOf hK (plain_node.1 hce).2 hp
        split at h
        · cases h; exact hself
        · rename_i c0 hc0
          have h2 := overT_find h1 hc0
          unfold powPartialSum at h
          split at h
          · cases h
          · split at h
            · cases h
            · rename_i y hy
              exact plain_mulPow hK hs (plain_basic.oint _) hcb (plain_createSumRaw hK (by exact h2.2.1) hy) h
          · split at h
            · cases h
            · split at h
              · cases h; exact hself
              · split at h
                · cases h
                · rename_i g hg
                  have h3 := hK.mul _ _ (by simpa using ⟨hcm.1, plain_basic.oint _⟩) hg
                  split at h
                  · cases h
                  · rename_i c1 hc1
                    have h4 := over_subE plain_basic hK h2.1 h3 hc1
                    split at h
                    · cases h
                    · rename_i y hy
                      exact plain_mulPow hK hs (plain_basic.oint _) hcb (plain_createSumRaw hK (by exact h2.2.2 _ h4) hy) h
          · cases h; exact hself
    · unfold powPartialMul at h
      split at h
      · cases h
      · exact hK.pow _ _ _ hs (plain_basic.oint _) h
      · split at h
        · cases h
        · split at h
          · cases h; exact hself
          · split at h
            · cases h
            · rename_i f hf
              split at h
              · cases h
              · rename_i y hy
                exact plain_mulPow hK hs (plain_basic.oint _) hcb (hK.mul _ _ (by simpa using ⟨hte, over_ratExpr plain_basic hf⟩) hy) h
      · cases h; exact hself
  · cases h; exact hself

end

end Wf.Sym
