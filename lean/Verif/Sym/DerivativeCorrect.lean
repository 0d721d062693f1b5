import Verif.Sym.DerivativeSound

/-! # Differentiation computes the derivative: the induction -/

namespace Wf.Sym
open Complex Filter Topology

variable {F : Type} [DecidableEq F] [FnSem F] {ρ : ℝ → Env F} {t₀ : ℝ}

/-- The value of `e` is differentiable at `t₀`, and if the code finds a derivative it has the value of the derivative. -/
def DiffOk (D : DiffCfg F) (ρ : ℝ → Env F) (t₀ : ℝ) (e : Expr F) : Prop :=
  ∃ g g', HasDer ρ t₀ (fun σ => eval σ e) g g' ∧ ∀ d, diffE D e = .ok d → HasVal (ρ t₀) d g'

theorem diffs_forall {D : DiffCfg F} : ∀ {es ds : List (Expr F)}, diffs D es = .ok ds → List.Forall₂ (fun e d => diffE D e = .ok d) es ds
  | [], ds => fun h => by unfold diffs at h; cases h; exact .nil
  | e :: es, ds => fun h => by
    unfold diffs at h
    obtain ⟨d, h1, h⟩ := andThen_ok h
    obtain ⟨ds', h2, h⟩ := andThen_ok h
    cases h
    exact .cons h1 (diffs_forall h2)

/-! ## Sums and products -/

theorem sum_ok {D : DiffCfg F} {ts : List (Expr F)} (ht : ∀ t ∈ ts, DiffOk D ρ t₀ t) :
    ∃ g g', HasDer ρ t₀ (fun σ => sumO (ts.map (eval σ))) g g' ∧ ∀ ds, diffs D ts = .ok ds → sumO (ds.map (eval (ρ t₀))) = some g' := by
  induction ts with
  | nil =>
    refine ⟨fun _ => 0, 0, HasDer.const (.of_forall fun _ => rfl), fun ds h => ?_⟩
    unfold diffs at h; cases h; rfl
  | cons t ts ih =>
    obtain ⟨g1, g1', h1, hd1⟩ := ht t (by simp)
    obtain ⟨g2, g2', h2, hd2⟩ := ih (fun u hu => ht u (by simp [hu]))
    refine ⟨fun t => g1 t + g2 t, g1' + g2', ⟨?_, h1.2.add h2.2⟩, fun ds h => ?_⟩
    · filter_upwards [h1.1, h2.1] with s e1 e2
      rw [List.map_cons, sumO_cons, e1, e2]; rfl
    · unfold diffs at h
      obtain ⟨d, hd, h⟩ := andThen_ok h
      obtain ⟨ds', hds, h⟩ := andThen_ok h
      cases h
      rw [List.map_cons, sumO_cons, (hd1 d hd).2, hd2 ds' hds]; rfl

theorem product_ok {D : DiffCfg F} {lic : Lic F} (hK : Sound lic (ρ t₀) D.K) (hl : lic.TrueAt (ρ t₀)) {ts : List (Expr F)} (hg : ∀ t ∈ ts, Good t)
    (ht : ∀ t ∈ ts, DiffOk D ρ t₀ t) :
    ∃ g g', HasDer ρ t₀ (fun σ => prodO (ts.map (eval σ))) g g' ∧ ∀ ds, diffs D ts = .ok ds →
      ∀ pre P, (∀ u ∈ pre, Good u) → prodO (pre.map (eval (ρ t₀))) = some P → ∀ ps, productTerms D.K pre ts ds = .ok ps →
        sumO (ps.map (eval (ρ t₀))) = some (P * g') := by
  induction ts with
  | nil =>
    refine ⟨fun _ => 1, 0, HasDer.const (.of_forall fun _ => rfl), fun ds h pre P _ _ ps hps => ?_⟩
    unfold productTerms at hps; cases hps
    simp
  | cons t ts ih =>
    obtain ⟨g1, g1', h1, hd1⟩ := ht t (by simp)
    obtain ⟨g2, g2', h2, hd2⟩ := ih (fun u hu => hg u (by simp [hu])) (fun u hu => ht u (by simp [hu]))
    refine ⟨fun t => g1 t * g2 t, g1' * g2 t₀ + g1 t₀ * g2', ⟨?_, h1.2.mul h2.2⟩, fun ds h pre P hpre hP ps hps => ?_⟩
    · filter_upwards [h1.1, h2.1] with s e1 e2
      rw [List.map_cons, prodO_cons, e1, e2]; rfl
    · unfold diffs at h
      obtain ⟨d, hd, h⟩ := andThen_ok h
      obtain ⟨ds', hds, h⟩ := andThen_ok h
      cases h
      have hv := hd1 d hd
      have hpre' : ∀ u ∈ pre ++ [t], Good u := by
        intro u hu
        rcases List.mem_append.1 hu with hu | hu
        · exact hpre u hu
        · rw [List.mem_singleton.1 hu]; exact hg t (by simp)
      have hP' : prodO ((pre ++ [t]).map (eval (ρ t₀))) = some (P * g1 t₀) := by
        have e1 : eval (ρ t₀) t = some (g1 t₀) := h1.at
        rw [List.map_append, prodO_append, hP, List.map_singleton, prodO_cons, prodO_nil, e1]
        simp
      unfold productTerms at hps
      by_cases hz : isInt 0 d = true
      · rw [if_pos hz] at hps
        rw [hd2 ds' hds _ _ hpre' hP' _ hps, hv_isZero hv.2 hz]
        congr 1; ring
      · rw [if_neg hz] at hps
        obtain ⟨p, hp, hps⟩ := andThen_ok hps
        obtain ⟨qs, hqs, hps⟩ := andThen_ok hps
        cases hps
        have hgood : ∀ u ∈ d :: (pre ++ ts), Good u := by
          intro u hu
          rcases List.mem_cons.1 hu with rfl | hu
          · exact hv.1
          · rcases List.mem_append.1 hu with hu | hu
            · exact hpre u hu
            · exact hg u (by simp [hu])
        have hpv : eval (ρ t₀) p = some (g1' * (P * g2 t₀)) := by
          refine (hK.mul _ _ hgood hp).2 hl _ ?_
          have e2 : prodO (ts.map (eval (ρ t₀))) = some (g2 t₀) := h2.at
          rw [List.map_cons, prodO_cons, List.map_append, prodO_append, hP, e2, hv.2]
          rfl
        rw [List.map_cons, sumO_cons, hpv, hd2 ds' hds _ _ hpre' hP' _ hqs]
        show some _ = some _
        congr 1; ring

/-! ## Powers -/

/-- What the rule for powers computes, if every part of it has a value. -/
theorem diffPow_val {K : Ctors F} {lic : Lic F} {ρ : Env F} (hK : Sound lic ρ K) (hl : lic.TrueAt ρ) {m : Nat} {b e db de r : Expr F} {z w b' e' : ℂ}
    (hb : HasVal ρ b z) (he : HasVal ρ e w) (hdb : HasVal ρ db b') (hde : HasVal ρ de e') (h0 : z ≠ 0) (h : diffPow K m b e db de = .ok r) :
    HasVal ρ r (z ^ w * (z⁻¹ * b' * w + log z * e')) := by
  unfold diffPow at h
  by_cases hz : (isInt 0 db && isInt 0 de) = true
  · rw [if_pos hz] at h; cases h
    rw [Bool.and_eq_true] at hz
    rw [hv_isZero hdb.2 hz.1, hv_isZero hde.2 hz.2]
    simpa using hv_zero
  · rw [if_neg hz] at h
    obtain ⟨e1, h1, h⟩ := andThen_ok h
    obtain ⟨p, h2, h⟩ := andThen_ok h
    obtain ⟨q, h3, h⟩ := andThen_ok h
    obtain ⟨l, h4, h⟩ := andThen_ok h
    obtain ⟨p', h5, h⟩ := andThen_ok h
    obtain ⟨g, h6, h⟩ := andThen_ok h
    obtain ⟨q', h7, h⟩ := andThen_ok h
    obtain ⟨r', h8, h⟩ := andThen_ok h
    have v1 := hv_mul hK hl (hv_mul hK hl he (hv_pow_ne hK hl hb (hv_sub hK hl he hv_one h1) h0 h2) h3) hdb h4
    have v2 := hv_mul hK hl (hv_mul hK hl (hv_pow_ne hK hl hb he h0 h5) (hv_fn hK hl (f := .log) (z := log z) hb (by simp [fnVal, h0]) h6) h7) hde h8
    have v := hv_add hK hl v1 v2 h
    have e : w * z ^ (w - 1) * b' + z ^ w * log z * e' = z ^ w * (z⁻¹ * b' * w + log z * e') := by
      rw [cpow_sub _ _ h0, cpow_one]
      field_simp
    rwa [e] at v

theorem pow_ok {D : DiffCfg F} {lic : Lic F} (hK : Sound lic (ρ t₀) D.K) (hl : lic.TrueAt (ρ t₀)) {b e : Expr F} (hgb : Good b) (hge : Good e)
    (hb : DiffOk D ρ t₀ b) (he : DiffOk D ρ t₀ e) (hlog : LogNear ρ t₀ b) : DiffOk D ρ t₀ (.pow b e) := by
  obtain ⟨gb, gb', h1, hd1⟩ := hb
  obtain ⟨ge, ge', h2, hd2⟩ := he
  obtain ⟨z, hz, hcut⟩ := hlog
  have hz1 : gb t₀ = z := h1.at_eq hz
  have h0 : gb t₀ ≠ 0 := by
    rw [hz1]
    rcases hcut with h | h
    · exact slitPlane_ne_zero h
    · exact h.1
  have hL := log_curve h1.2 (by
    rw [hz1]
    rcases hcut with h | h
    · exact Or.inl h
    · exact Or.inr ⟨h.1, h1.real h.2⟩)
  refine ⟨fun t => exp (log (gb t) * ge t), _, ⟨?_, (hL.mul h2.2).cexp⟩, fun d hd => ?_⟩
  · filter_upwards [h1.1, h2.1, h1.ne h0] with t e1 e2 e3
    rw [eval_pow, e1, e2]
    show powVal _ _ = _
    rw [powVal_of_ne e3, cpow_def_of_ne_zero e3]
  · have hd : diffNode D .pow [b, e] (fun _ => diffs D [b, e]) (fun _ => diffTail D [b, e]) = .ok d := by rw [← hd, diffE]
    unfold diffNode at hd
    dsimp only at hd
    obtain ⟨ds, hds, hd⟩ := andThen_ok hd
    obtain _ | ⟨hdb, _ | ⟨hde, _ | _⟩⟩ := diffs_forall hds
    have v := diffPow_val hK hl ⟨hgb, h1.at⟩ ⟨hge, h2.at⟩ (hd1 _ hdb) (hd2 _ hde) h0 hd
    rw [cpow_def_of_ne_zero h0] at v
    exact v

theorem powInt_ok {D : DiffCfg F} {lic : Lic F} (hK : Sound lic (ρ t₀) D.K) (hl : lic.TrueAt (ρ t₀)) {b : Expr F} {n : Int} {z : ℂ} (hgb : Good b)
    (hge : Good (.int n : Expr F)) (hb : DiffOk D ρ t₀ b) (hz : eval (ρ t₀) b = some z) (h0 : z ≠ 0) : DiffOk D ρ t₀ (.pow b (.int n)) := by
  obtain ⟨gb, gb', h1, hd1⟩ := hb
  have hz1 : gb t₀ = z := h1.at_eq hz
  have h0' : gb t₀ ≠ 0 := by rw [hz1]; exact h0
  have hp := (hasDerivAt_zpow n (gb t₀) (Or.inl h0')).scomp t₀ h1.2
  refine ⟨fun t => gb t ^ n, _, ⟨?_, hp⟩, fun d hd => ?_⟩
  · filter_upwards [h1.1, h1.ne h0'] with t e1 e3
    rw [eval_pow, e1, eval_int]
    show powVal _ _ = _
    rw [powVal_of_ne e3, cpow_intCast]
  · have hd : diffNode D .pow [b, .int n] (fun _ => diffs D [b, .int n]) (fun _ => diffTail D [b, .int n]) = .ok d := by rw [← hd, diffE]
    unfold diffNode at hd
    dsimp only at hd
    obtain ⟨ds, hds, hd⟩ := andThen_ok hd
    obtain _ | ⟨hdb, _ | ⟨hde, _ | _⟩⟩ := diffs_forall hds
    have hde' : ∀ d, diffE D (.int n) = .ok d → d = .int 0 := fun d h => by rw [diffE] at h; cases h; rfl
    cases hde' _ hde
    have v := diffPow_val hK hl ⟨hgb, h1.at⟩ ⟨hge, eval_int _ _⟩ (hd1 _ hdb) hv_zero h0' hd
    have e : gb t₀ ^ (n : ℂ) * ((gb t₀)⁻¹ * gb' * n + log (gb t₀) * 0) = gb' • (n * gb t₀ ^ (n - 1) : ℂ) := by
      rw [cpow_intCast, zpow_sub_one₀ h0', smul_eq_mul]; ring
    rwa [e] at v

theorem powZero_ok {D : DiffCfg F} {lic : Lic F} {k : Nat} (hD : D.K = ctors lic k) (hl : lic.TrueAt (ρ t₀)) {b : Expr F} {n : Int} {ρ₁ : Env F} {z : ℂ}
    (hgb : Good b) (hge : Good (.int n : Expr F)) (hb : DiffOk D ρ t₀ b) (hn : 2 ≤ n) (hl1 : lic.TrueAt ρ₁) (hz : eval ρ₁ b = some z) (h0 : z ≠ 0) :
    DiffOk D ρ t₀ (.pow b (.int n)) := by
  have hK : Sound lic (ρ t₀) D.K := hD ▸ ctors_sound lic _ k
  have hK1 : Sound lic ρ₁ D.K := hD ▸ ctors_sound lic _ k
  obtain ⟨gb, gb', h1, hd1⟩ := hb
  have hp := (hasDerivAt_zpow n (gb t₀) (Or.inr (by omega))).scomp t₀ h1.2
  have hpv : ∀ (w : ℂ) (j : Int), 1 ≤ j → powVal w j = some (w ^ j) := by
    intro w j hj
    by_cases hw : w = 0
    · rw [hw, powVal_zero_pos (by simpa using (by omega : 0 < j)), zero_zpow _ (by omega)]
    · rw [powVal_of_ne hw, cpow_intCast]
  refine ⟨fun t => gb t ^ n, _, ⟨?_, hp⟩, fun d hd => ?_⟩
  · filter_upwards [h1.1] with t e1
    rw [eval_pow, e1, eval_int]
    exact hpv _ _ (by omega)
  · have hd : diffNode D .pow [b, .int n] (fun _ => diffs D [b, .int n]) (fun _ => diffTail D [b, .int n]) = .ok d := by rw [← hd, diffE]
    unfold diffNode at hd
    dsimp only at hd
    obtain ⟨ds, hds, hd⟩ := andThen_ok hd
    obtain _ | ⟨hdb, _ | ⟨hde, _ | _⟩⟩ := diffs_forall hds
    have hde' : ∀ d, diffE D (.int n) = .ok d → d = .int 0 := fun d h => by rw [diffE] at h; cases h; rfl
    cases hde' _ hde
    have hdb := hd1 _ hdb
    change diffPow _ _ _ _ _ _ = _ at hd
    unfold diffPow at hd
    have hbv : HasVal (ρ t₀) b (gb t₀) := ⟨hgb, h1.at⟩
    have hev : HasVal (ρ t₀) (.int n) (n : ℂ) := ⟨hge, eval_int _ _⟩
    rename_i db _
    by_cases hzz : (isInt 0 db && isInt 0 (.int 0 : Expr F)) = true
    · rw [if_pos hzz] at hd
      cases hd
      rw [Bool.and_eq_true] at hzz
      rw [hv_isZero hdb.2 hzz.1]
      simpa using hv_zero
    · rw [if_neg hzz] at hd
      obtain ⟨e1, h1, hd⟩ := andThen_ok hd
      obtain ⟨p, h2, hd⟩ := andThen_ok hd
      obtain ⟨q, h3, hd⟩ := andThen_ok hd
      obtain ⟨l, h4, hd⟩ := andThen_ok hd
      obtain ⟨p', h5, hd⟩ := andThen_ok hd
      obtain ⟨g, h6, hd⟩ := andThen_ok hd
      obtain ⟨q', h7, hd⟩ := andThen_ok hd
      obtain ⟨r', h8, hd⟩ := andThen_ok hd
      have hb1 : HasVal ρ₁ b z := ⟨hgb, hz⟩
      have hq1 := hv_mul hK1 hl1 (hv_pow_ne hK1 hl1 hb1 ⟨hge, eval_int _ _⟩ h0 h5) (hv_fn hK1 hl1 (f := .log) (z := log z) hb1 (by simp [fnVal, h0]) h6) h7
      rw [hD] at h8
      have hr' := mul_zero_eq hl1 k hq1.1 hq1.2 h8
      have hpw : powVal (gb t₀) ((n : ℂ) - 1) = some (gb t₀ ^ (n - 1)) := by
        have := hpv (gb t₀) (n - 1) (by omega)
        push_cast at this; exact this
      have v1 := hv_mul hK hl (hv_mul hK hl hev (hv_pow hK hl hbv (hv_sub hK hl hev hv_one h1) hpw h2) h3) hdb h4
      rw [hr'] at hd
      have v := hv_add hK hl v1 hv_zero hd
      have e : (n : ℂ) * gb t₀ ^ (n - 1) * gb' + 0 = gb' • (n * gb t₀ ^ (n - 1) : ℂ) := by rw [smul_eq_mul]; ring
      rwa [e] at v

/-! ## Functions -/

/-- The derivative of a function of one argument is zero or comes from its rule. -/
theorem diffFn_cases {D : DiffCfg F} {f : BuiltIn} {x d : Expr F} (h : diffE D (.fn f [x]) = .ok d) :
    ∃ dx, diffE D x = .ok dx ∧ ((isInt 0 dx = true ∧ d = .int 0) ∨ diffFn1 D (.fn f [x]) f x dx = .ok d) := by
  have hd : diffNode D (.fn f) [x] (fun _ => diffs D [x]) (fun _ => diffTail D [x]) = .ok d := by rw [← h, diffE]
  unfold diffNode at hd
  dsimp only at hd
  obtain ⟨ds, hds, hd⟩ := andThen_ok hd
  obtain _ | ⟨hdx, _ | _⟩ := diffs_forall hds
  refine ⟨_, hdx, ?_⟩
  unfold diffFn at hd
  split at hd
  · rename_i hz
    cases hd
    exact Or.inl ⟨by simpa using hz, rfl⟩
  · exact Or.inr hd

theorem fn_ok {D : DiffCfg F} {lic : Lic F} (hK : Sound lic (ρ t₀) D.K) (hl : lic.TrueAt (ρ t₀)) {f : BuiltIn} {x : Expr F} {z : ℂ} (hg : Good x)
    (hx : DiffOk D ρ t₀ x) (hz : eval (ρ t₀) x = some z) (hr : Regular f z) : DiffOk D ρ t₀ (.fn f [x]) := by
  obtain ⟨gx, gx', h1, hd1⟩ := hx
  have hz1 : gx t₀ = z := h1.at_eq hz
  obtain ⟨G, hG, hG'⟩ := fn_deriv f z hr
  rw [← hz1] at hG hG'
  refine ⟨G ∘ gx, _, ⟨?_, hG'.scomp t₀ h1.2⟩, fun d hd => ?_⟩
  · filter_upwards [h1.1, h1.2.continuousAt.eventually hG] with t e1 e2
    rw [eval_fn1, fn1, e1]; exact e2
  · obtain ⟨dx, hdx, h⟩ := diffFn_cases hd
    have hv := hd1 dx hdx
    rcases h with ⟨hzero, rfl⟩ | h
    · rw [hv_isZero hv.2 hzero]; simpa using hv_zero
    · have v := diffFn1_ok hK hl ⟨hg, h1.at⟩ hv (by rw [hz1]; exact hr) h
      rwa [mul_comm] at v

theorem log_ok {D : DiffCfg F} {lic : Lic F} (hK : Sound lic (ρ t₀) D.K) (hl : lic.TrueAt (ρ t₀)) {x : Expr F} (hg : Good x)
    (hx : DiffOk D ρ t₀ x) (hlog : LogNear ρ t₀ x) : DiffOk D ρ t₀ (.fn .log [x]) := by
  obtain ⟨gx, gx', h1, hd1⟩ := hx
  obtain ⟨z, hz, hcut⟩ := hlog
  have hz1 : gx t₀ = z := h1.at_eq hz
  have h0 : gx t₀ ≠ 0 := by
    rw [hz1]
    rcases hcut with h | h
    · exact slitPlane_ne_zero h
    · exact h.1
  have hL := log_curve h1.2 (by
    rw [hz1]
    rcases hcut with h | h
    · exact Or.inl h
    · exact Or.inr ⟨h.1, h1.real h.2⟩)
  refine ⟨_, _, ⟨?_, hL⟩, fun d hd => ?_⟩
  · filter_upwards [h1.1, h1.ne h0] with t e1 e2
    rw [eval_fn1, fn1, e1]
    simp [fnVal, e2]
  · obtain ⟨dx, hdx, h⟩ := diffFn_cases hd
    have hv := hd1 dx hdx
    rcases h with ⟨hzero, rfl⟩ | h
    · rw [hv_isZero hv.2 hzero]; simpa using hv_zero
    · obtain ⟨p, hp, h⟩ := andThen_ok h
      have h3 := hv_pow_ne hK hl ⟨hg, h1.at⟩ hv_negOne h0 hp
      rw [cpow_neg_one] at h3
      exact hv_mul hK hl h3 hv h

/-- A real curve that is not zero keeps its sign: it is near `t₀` the same multiple of its absolute value. -/
theorem sign_near {g : ℝ → ℂ} {g' : ℂ} (h : HasDerivAt g g' t₀) (hr : ∀ᶠ t in 𝓝 t₀, (g t).im = 0) (h0 : g t₀ ≠ 0) :
    ∃ s : ℂ, s * s = 1 ∧ ∀ᶠ t in 𝓝 t₀, g t ≠ 0 ∧ (‖g t‖ : ℂ) = s * g t := by
  have him0 := hr.self_of_nhds
  have hcont := (hasDerivAt_re h).continuousAt
  have hre : (g t₀).re ≠ 0 := fun h1 => h0 (Complex.ext h1 him0)
  have hne := h.continuousAt.eventually_ne h0
  have key : ∀ t, (g t).im = 0 → (‖g t‖ : ℂ) = (|(g t).re| : ℝ) := by
    intro t ht
    have : g t = ((g t).re : ℂ) := Complex.ext (by simp) (by simp [ht])
    conv_lhs => rw [this, norm_real, Real.norm_eq_abs]
  have hg : ∀ t, (g t).im = 0 → g t = ((g t).re : ℂ) := fun t ht => Complex.ext (by simp) (by simp [ht])
  rcases lt_or_gt_of_ne hre with hneg | hpos
  · refine ⟨-1, by norm_num, ?_⟩
    have h2 : ∀ᶠ t in 𝓝 t₀, (g t).re < 0 := hcont.eventually_lt continuousAt_const hneg
    filter_upwards [hr, h2, hne] with t e1 e2 e3
    refine ⟨e3, ?_⟩
    rw [key t e1, abs_of_neg e2]
    conv_rhs => rw [hg t e1]
    push_cast; ring
  · refine ⟨1, by norm_num, ?_⟩
    have h2 : ∀ᶠ t in 𝓝 t₀, 0 < (g t).re := continuousAt_const.eventually_lt hcont hpos
    filter_upwards [hr, h2, hne] with t e1 e2 e3
    refine ⟨e3, ?_⟩
    rw [key t e1, abs_of_pos e2]
    conv_rhs => rw [hg t e1]
    rw [one_mul]

theorem abs_ok {D : DiffCfg F} {lic : Lic F} (hK : Sound lic (ρ t₀) D.K) (hl : lic.TrueAt (ρ t₀)) {x : Expr F} {z : ℂ} (hg : Good x)
    (hx : DiffOk D ρ t₀ x) (hr : RealNear ρ t₀ x) (hz : eval (ρ t₀) x = some z) (h0 : z ≠ 0) : DiffOk D ρ t₀ (.fn .abs [x]) := by
  obtain ⟨gx, gx', h1, hd1⟩ := hx
  have hz1 : gx t₀ = z := h1.at_eq hz
  rw [← hz1] at h0
  obtain ⟨s, hs, hsn⟩ := sign_near h1.2 (h1.real hr) h0
  refine ⟨fun t => s * gx t, _, ⟨?_, h1.2.const_mul s⟩, fun d hd => ?_⟩
  · filter_upwards [h1.1, hsn] with t e1 e2
    rw [eval_fn1, fn1, e1]
    show some _ = some _
    rw [e2.2]
  · obtain ⟨dx, hdx, h⟩ := diffFn_cases hd
    have hv := hd1 dx hdx
    rcases h with ⟨hzero, rfl⟩ | h
    · rw [hv_isZero hv.2 hzero]; simpa using hv_zero
    · obtain ⟨b, hb, h⟩ := andThen_ok h
      obtain ⟨q, hq, h⟩ := andThen_ok h
      have hxv : HasVal (ρ t₀) x (gx t₀) := ⟨hg, h1.at⟩
      have hbv := hv_fn hK hl (f := .abs) hxv rfl hb
      have e := hsn.self_of_nhds
      have hs0 : s ≠ 0 := by rintro rfl; simp at hs
      rw [e.2] at hbv
      have hqv := hv_div hK hl hxv hbv (mul_ne_zero hs0 h0) hq
      have : gx t₀ * (s * gx t₀)⁻¹ = s := by
        field_simp
        rw [pow_two]; exact hs.symm
      rw [this] at hqv
      exact hv_mul hK hl hqv hv h

/-- If the value does not change and the derivative is zero, all is well. -/
theorem const_ok {D : DiffCfg F} {e : Expr F} {z : ℂ} (hz : ∀ᶠ t in 𝓝 t₀, eval (ρ t) e = some z) (hd : ∀ d, diffE D e = .ok d → d = .int 0) :
    DiffOk D ρ t₀ e :=
  ⟨_, _, HasDer.const hz, fun d h => by rw [hd d h]; exact hv_zero⟩

theorem kink_zero {D : DiffCfg F} (hbeh : D.beh = .constant) {e : Res (Expr F)} {d : Expr F} (h : diffKink D e = .ok d) : d = .int 0 := by
  unfold diffKink at h
  rw [hbeh] at h
  cases h; rfl

theorem signum_ok {D : DiffCfg F} (hbeh : D.beh = .constant) {x : Expr F} {z : ℂ}
    (hx : DiffOk D ρ t₀ x) (hr : RealNear ρ t₀ x) (hz : eval (ρ t₀) x = some z) (h0 : z ≠ 0) : DiffOk D ρ t₀ (.fn .signum [x]) := by
  obtain ⟨gx, gx', h1, hd1⟩ := hx
  have hz1 : gx t₀ = z := h1.at_eq hz
  rw [← hz1] at h0
  obtain ⟨s, hs, hsn⟩ := sign_near h1.2 (h1.real hr) h0
  refine const_ok (z := s) ?_ fun d hd => ?_
  · filter_upwards [h1.1, hsn] with t e1 e2
    rw [eval_fn1, fn1, e1]
    show fnVal .signum [gx t] = _
    have hs0 : s ≠ 0 := by rintro rfl; simp at hs
    rw [show fnVal .signum [gx t] = if gx t = 0 then some 0 else some (gx t / ‖gx t‖) from rfl, if_neg e2.1, e2.2]
    congr 1
    have := e2.1
    field_simp
    rw [pow_two]; exact hs.symm
  · obtain ⟨dx, _, ⟨_, rfl⟩ | h⟩ := diffFn_cases hd
    · rfl
    · exact kink_zero hbeh h

theorem floor_ok {D : DiffCfg F} (hbeh : D.beh = .constant) {x : Expr F} {r : ℝ}
    (hx : DiffOk D ρ t₀ x) (hr : RealNear ρ t₀ x) (hz : eval (ρ t₀) x = some (r : ℂ)) (h0 : ∀ n : ℤ, r ≠ n) : DiffOk D ρ t₀ (.fn .floor [x]) := by
  obtain ⟨gx, gx', h1, hd1⟩ := hx
  have hz1 : gx t₀ = r := h1.at_eq hz
  have hre : (gx t₀).re = r := by rw [hz1, ofReal_re]
  have hcont := (hasDerivAt_re h1.2).continuousAt
  have hlo : (⌊r⌋ : ℝ) < (gx t₀).re := by rw [hre]; exact lt_of_le_of_ne (Int.floor_le r) (h0 _).symm
  have hhi : (gx t₀).re < ⌊r⌋ + 1 := by rw [hre]; exact Int.lt_floor_add_one r
  have e1 : ∀ᶠ t in 𝓝 t₀, (⌊r⌋ : ℝ) < (gx t).re := continuousAt_const.eventually_lt hcont hlo
  have e2 : ∀ᶠ t in 𝓝 t₀, (gx t).re < (⌊r⌋ : ℝ) + 1 := hcont.eventually_lt continuousAt_const hhi
  refine const_ok (z := ⟨⌊r⌋, 0⟩) ?_ fun d hd => ?_
  · filter_upwards [h1.1, h1.real hr, e1, e2] with t f1 f2 f3 f4
    rw [eval_fn1, fn1, f1]
    show some _ = some _
    have : ⌊(gx t).re⌋ = ⌊r⌋ := Int.floor_eq_iff.2 ⟨f3.le, f4⟩
    rw [this, f2]; simp
  · obtain ⟨dx, _, ⟨_, rfl⟩ | h⟩ := diffFn_cases hd
    · rfl
    · exact kink_zero hbeh h

theorem arctan2_ok {D : DiffCfg F} {lic : Lic F} (hK : Sound lic (ρ t₀) D.K) (hl : lic.TrueAt (ρ t₀)) {y x : Expr F} {a b : ℝ} (hgy : Good y)
    (hgx : Good x) (hy : DiffOk D ρ t₀ y) (hx : DiffOk D ρ t₀ x) (hry : RealNear ρ t₀ y) (hrx : RealNear ρ t₀ x)
    (ha : eval (ρ t₀) y = some (a : ℂ)) (hb : eval (ρ t₀) x = some (b : ℂ)) (h0 : 0 < b ∨ a ≠ 0) : DiffOk D ρ t₀ (.fn .arctan2 [y, x]) := by
  obtain ⟨gy, gy', h1, hd1⟩ := hy
  obtain ⟨gx, gx', h2, hd2⟩ := hx
  have hy1 : gy t₀ = a := h1.at_eq ha
  have hx1 : gx t₀ = b := h2.at_eq hb
  have iy := h1.real hry
  have ix := h2.real hrx
  have iy' := deriv_im_zero h1.2 iy
  have ix' := deriv_im_zero h2.2 ix
  have hw : HasDerivAt (fun t => gx t + gy t * I) (gx' + gy' * I) t₀ := h2.2.add (h1.2.mul_const I)
  have hw0 : gx t₀ + gy t₀ * I ∈ slitPlane := by
    rw [hx1, hy1, mem_slitPlane_iff]
    simpa using h0
  have hL := log_curve hw (Or.inl hw0)
  have hI := (hasDerivAt_im hL).ofReal_comp
  refine ⟨_, _, ⟨?_, hI⟩, fun d hd => ?_⟩
  · filter_upwards [h1.1, h2.1, iy, ix, hw.continuousAt.eventually_ne (slitPlane_ne_zero hw0)] with t e1 e2 e3 e4 e5
    rw [eval_fn, List.map_cons, List.map_singleton, e1, e2]
    show fnVal .arctan2 [gy t, gx t] = _
    have hne : ¬ (gx t = 0 ∧ gy t = 0) := by
      rintro ⟨f1, f2⟩
      rw [f1, f2] at e5
      simp at e5
    have : fnVal .arctan2 [gy t, gx t] = if (gy t).im = 0 ∧ (gx t).im = 0 ∧ ¬ (gx t = 0 ∧ gy t = 0) then some (arg ⟨(gx t).re, (gy t).re⟩ : ℂ) else none := rfl
    rw [this, if_pos ⟨e3, e4, hne⟩, log_im]
    congr 3
    apply Complex.ext <;> simp [e3, e4]
  · have hd : diffNode D (.fn .arctan2) [y, x] (fun _ => diffs D [y, x]) (fun _ => diffTail D [y, x]) = .ok d := by rw [← hd, diffE]
    unfold diffNode at hd
    dsimp only at hd
    obtain ⟨ds, hds, hd⟩ := andThen_ok hd
    obtain _ | ⟨hdy, _ | ⟨hdx, _ | _⟩⟩ := diffs_forall hds
    have vy := hd1 _ hdy
    have vx := hd2 _ hdx
    unfold diffFn at hd
    split at hd
    · rename_i hz
      cases hd
      simp only [List.all_cons, List.all_nil, Bool.and_true, Bool.and_eq_true] at hz
      rw [hv_isZero vy.2 hz.1, hv_isZero vx.2 hz.2]
      simpa using hv_zero
    · dsimp only at hd
      rw [if_pos rfl] at hd
      obtain ⟨yy, h3, hd⟩ := andThen_ok hd
      obtain ⟨xx, h4, hd⟩ := andThen_ok hd
      obtain ⟨s, h5, hd⟩ := andThen_ok hd
      obtain ⟨p, h6, hd⟩ := andThen_ok hd
      obtain ⟨np, h7, hd⟩ := andThen_ok hd
      obtain ⟨q, h8, hd⟩ := andThen_ok hd
      obtain ⟨p', h9, hd⟩ := andThen_ok hd
      obtain ⟨q', h10, hd⟩ := andThen_ok hd
      have hyv : HasVal (ρ t₀) y a := ⟨hgy, ha⟩
      have hxv : HasVal (ρ t₀) x b := ⟨hgx, hb⟩
      have hsne : ((a : ℂ) * a + b * b) ≠ 0 := by
        have : 0 < a * a + b * b := by
          rcases h0 with h | h
          · have := mul_self_nonneg a; have := mul_pos h h; linarith
          · have := mul_self_nonneg b; have := mul_self_pos.2 h; linarith
        exact_mod_cast this.ne'
      have vs := hv_add hK hl (hv_mul hK hl hyv hyv h3) (hv_mul hK hl hxv hxv h4) h5
      have v := hv_add hK hl (hv_div hK hl (hv_neg hK hl (hv_mul hK hl hyv vx h6) h7) vs hsne h8) (hv_div hK hl (hv_mul hK hl hxv vy h9) vs hsne h10) hd
      have e : -((a : ℂ) * gx') * ((a : ℂ) * a + b * b)⁻¹ + b * gy' * ((a : ℂ) * a + b * b)⁻¹ =
          ((((gx t₀ + gy t₀ * I)⁻¹ * (gx' + gy' * I)).im : ℝ) : ℂ) := by
        have ex : gx' = ((gx'.re : ℝ) : ℂ) := Complex.ext (by simp) (by simp [ix'])
        have ey : gy' = ((gy'.re : ℝ) : ℂ) := Complex.ext (by simp) (by simp [iy'])
        have him : ((gx t₀ + gy t₀ * I)⁻¹ * (gx' + gy' * I)).im = (-(a * gx'.re) + b * gy'.re) / (a * a + b * b) := by
          rw [hx1, hy1, mul_im, inv_re, inv_im, normSq_apply]
          simp only [add_re, add_im, mul_re, mul_im, I_re, I_im, ofReal_re, ofReal_im, ix', iy']
          ring
        rw [him]
        conv_lhs => rw [ex, ey]
        push_cast
        ring
      rwa [e] at v

/-! ## The induction -/

/-- Differentiation of a smooth expression computes the derivative. -/
theorem smooth_ok {D : DiffCfg F} {lic : Lic F} {k : Nat} {S : Env F → Prop} {ρ₀ : Env F} {v : Head F} {A : Expr F → List (Expr F) → Prop} (hD : D.K = ctors lic k)
    (hS : ∀ σ, S σ → lic.TrueAt σ) (hv : v.isVar = true) (harg : D.arg = .node v []) (hO : GoodOther D.other)
    (h₀ : S (along ρ₀ (.node v []) t₀)) 
    (hA : ∀ e cs, A e cs → Good e → (∀ c ∈ cs, Good c ∧ DiffOk D (along ρ₀ (.node v [])) t₀ c) → DiffOk D (along ρ₀ (.node v [])) t₀ e)
    (hAg : ∀ e cs, A e cs → Good e → ∀ c ∈ cs, Good c) {e : Expr F} (hs : Smooth A D.beh S (along ρ₀ (.node v [])) t₀ e) (hg : Good e) :
    DiffOk D (along ρ₀ (.node v [])) t₀ e := by
  have hl := hS _ h₀
  have hK : Sound lic (along ρ₀ (.node v []) t₀) D.K := hD ▸ ctors_sound lic _ k
  have hgarg : Good D.arg := by rw [harg]; exact good_node.2 ⟨(by cases v <;> first | trivial | cases hv), (by simp)⟩
  induction hs with
  | @leaf h z hleaf hsc hz =>
    by_cases hvar : h.isVar = true
    · have hdiff : ∀ d, diffE D (.node h []) = .ok d → d = .int (if identical (.node h []) D.arg then 1 else 0) := by
        intro d hd
        rw [diffE] at hd
        cases h <;> first | (cases hvar; done) | (cases hd; rfl)
      by_cases hid : identical (.node h []) (.node v [] : Expr F) = true
      · refine ⟨fun t => (t : ℂ), 1, ⟨.of_forall fun t => ?_, Complex.ofRealCLM.hasDerivAt⟩, fun d hd => ?_⟩
        · show eval _ _ = _
          rw [eval_var_node hvar]
          simp [along, Env.setVar, hid]
        · rw [hdiff d hd, harg, if_pos hid]; exact hv_one
      · refine const_ok (z := z) (.of_forall fun t => ?_) fun d hd => ?_
        · rw [eval_var_node hvar] at hz ⊢
          simpa [along, Env.setVar, hid] using hz
        · rw [hdiff d hd, harg, if_neg hid]
    · refine const_ok (z := z) (.of_forall fun t => ?_) fun d hd => ?_
      · rw [eval_leaf_const hleaf (by simpa using hvar)] at hz
        exact hz
      · rw [diffE] at hd
        cases h with
        | undef => rw [eval_undef] at hz; cases hz
        | _ => first | (cases hleaf; done) | (cases hsc; done) | (exact absurd rfl hvar) | (cases hd; rfl)
  | add ht ih =>
    rename_i ts
    have hgs := good_add.1 hg
    obtain ⟨g, g', h1, h2⟩ := sum_ok (fun t h => ih t h (hgs t h))
    refine ⟨g, g', ⟨?_, h1.2⟩, fun d hd => ?_⟩
    · filter_upwards [h1.1] with t e
      rw [eval_add]; exact e
    · have hd : diffNode D .add ts (fun _ => diffs D ts) (fun _ => diffTail D ts) = .ok d := by rw [← hd, diffE]
      unfold diffNode at hd
      dsimp only at hd
      obtain ⟨ds, hds, hd⟩ := andThen_ok hd
      have := hK.add _ _ (g_diffs hK hgarg hO hgs hds) hd
      exact ⟨this.1, this.2 hl _ (h2 ds hds)⟩
  | mul ht ih =>
    rename_i ts
    have hgs := (good_mul.1 hg).2
    obtain ⟨g, g', h1, h2⟩ := product_ok hK hl hgs (fun t h => ih t h (hgs t h))
    refine ⟨g, g', ⟨?_, h1.2⟩, fun d hd => ?_⟩
    · filter_upwards [h1.1] with t e
      rw [eval_mul]; exact e
    · have hd : diffNode D .mul ts (fun _ => diffs D ts) (fun _ => diffTail D ts) = .ok d := by rw [← hd, diffE]
      unfold diffNode at hd
      dsimp only at hd
      obtain ⟨ds, hds, hd⟩ := andThen_ok hd
      obtain ⟨ps, hps, hd⟩ := andThen_ok hd
      have hsum := h2 ds hds [] 1 (by simp) rfl ps hps
      rw [one_mul] at hsum
      have hgp := g_productTerms hK (by simp) hgs (g_diffs hK hgarg hO hgs hds) hps
      split at hd
      · cases hd
        have : g' = 0 := by simpa using hsum.symm
        rw [this]; exact hv_zero
      · have := hK.add _ _ hgp hd
        exact ⟨this.1, this.2 hl _ hsum⟩
  | pow _ _ hlog ihb ihe =>
    obtain ⟨hgb, hge⟩ := good_pow.1 hg
    exact pow_ok hK hl hgb hge (ihb hgb) (ihe hge) hlog
  | powInt _ hz h0 ihb =>
    obtain ⟨hgb, hge⟩ := good_pow.1 hg
    exact powInt_ok hK hl hgb hge (ihb hgb) hz h0
  | powZero _ hn hS1 hz h0 ihb =>
    obtain ⟨hgb, hge⟩ := good_pow.1 hg
    exact powZero_ok hD hl hgb hge (ihb hgb) hn (hS _ hS1) hz h0
  | fn _ hz hr ih =>
    have hgx := good_fn.1 hg _ List.mem_cons_self
    exact fn_ok hK hl hgx (ih hgx) hz hr
  | log _ hlog ih =>
    have hgx := good_fn.1 hg _ List.mem_cons_self
    exact log_ok hK hl hgx (ih hgx) hlog
  | abs _ hr hz h0 ih =>
    have hgx := good_fn.1 hg _ List.mem_cons_self
    exact abs_ok hK hl hgx (ih hgx) hr hz h0
  | signum hbeh _ hr hz h0 ih =>
    have hgx := good_fn.1 hg _ List.mem_cons_self
    exact signum_ok hbeh (ih hgx) hr hz h0
  | floor hbeh _ hr hz h0 ih =>
    have hgx := good_fn.1 hg _ List.mem_cons_self
    exact floor_ok hbeh (ih hgx) hr hz h0
  | arctan2 _ _ hry hrx ha hb h0 ihy ihx =>
    have hgs := good_fn.1 hg
    have hgy := hgs _ List.mem_cons_self
    have hgx := hgs _ (List.mem_cons_of_mem _ List.mem_cons_self)
    exact arctan2_ok hK hl hgy hgx (ihy hgy) (ihx hgx) hry hrx ha hb h0
  | @iverson c z hbeh hc =>
    refine const_ok (z := z) ?_ fun d hd => ?_
    · filter_upwards [hc] with t e
      rw [eval_iverson]; exact e
    · rw [diffE] at hd
      exact kink_zero hbeh hd
  | @condTrue c a b hc _ ih =>
    obtain ⟨hgc, hga, hgb⟩ := good_cond.1 hg
    obtain ⟨g, g', h1, h2⟩ := ih hga
    refine ⟨g, g', ⟨?_, h1.2⟩, fun d hd => ?_⟩
    · filter_upwards [hc, h1.1] with t e1 e2
      rw [eval_cond, e1, e2]; simp [condO]
    · refine ⟨g_diffE hK hgarg hO hg hd, ?_⟩
      have hd : diffNode D .cond [c, a, b] (fun _ => diffs D [c, a, b]) (fun _ => diffTail D [c, a, b]) = .ok d := by rw [← hd, diffE]
      unfold diffNode at hd
      dsimp only at hd
      obtain ⟨ds, hds, hd⟩ := andThen_ok hd
      rw [diffTail] at hds
      obtain _ | ⟨hda, _ | ⟨hdb, _ | _⟩⟩ := diffs_forall hds
      cases hd
      refine condCreate_ok _ _ _ _ _ ?_
      rw [hc.self_of_nhds, (h2 _ hda).2]; simp [condO]
  | @condFalse c a b hc _ ih =>
    obtain ⟨hgc, hga, hgb⟩ := good_cond.1 hg
    obtain ⟨g, g', h1, h2⟩ := ih hgb
    refine ⟨g, g', ⟨?_, h1.2⟩, fun d hd => ?_⟩
    · filter_upwards [hc, h1.1] with t e1 e2
      rw [eval_cond, e1, e2]; simp [condO]
    · refine ⟨g_diffE hK hgarg hO hg hd, ?_⟩
      have hd : diffNode D .cond [c, a, b] (fun _ => diffs D [c, a, b]) (fun _ => diffTail D [c, a, b]) = .ok d := by rw [← hd, diffE]
      unfold diffNode at hd
      dsimp only at hd
      obtain ⟨ds, hds, hd⟩ := andThen_ok hd
      rw [diffTail] at hds
      obtain _ | ⟨hda, _ | ⟨hdb, _ | _⟩⟩ := diffs_forall hds
      cases hd
      refine condCreate_ok _ _ _ _ _ ?_
      rw [hc.self_of_nhds, (h2 _ hdb).2]; simp [condO]
  | @uneval x _ ih =>
    have hgx := (good_node.1 hg).2 x (by simp)
    obtain ⟨g, g', h1, h2⟩ := ih hgx
    refine ⟨g, g', ⟨?_, h1.2⟩, fun d hd => ?_⟩
    · filter_upwards [h1.1] with t e
      rw [eval_uneval]; exact e
    · have hd : diffNode D .uneval [x] (fun _ => diffs D [x]) (fun _ => diffTail D [x]) = .ok d := by rw [← hd, diffE]
      unfold diffNode at hd
      dsimp only at hd
      obtain ⟨ds, hds, hd⟩ := andThen_ok hd
      obtain _ | ⟨hdx, _ | _⟩ := diffs_forall hds
      cases hd
      have := h2 _ hdx
      exact ⟨good_unevalCreate this.1, by rw [eval_unevalCreate]; exact this.2⟩
  | other hAe _ ih =>
    have hgc := hAg _ _ hAe hg
    exact hA _ _ hAe hg fun c hc => ⟨hgc c hc, ih c hc (hgc c hc)⟩

end Wf.Sym
