import Verif.Sym.ChainSpec
import Verif.Sym.DerivativeProps
import Mathlib.Analysis.Calculus.FDeriv.Prod
import Mathlib.Analysis.Calculus.FDeriv.Comp
import Mathlib.Analysis.Calculus.Deriv.Comp
import Mathlib.Analysis.Calculus.Deriv.Prod
import Mathlib.Analysis.Calculus.Deriv.Pi

/-! # Lemmas: the rules for declared functions, deferred derivatives and substitutions -/

namespace Wf.Sym
open Complex Filter Topology

variable {F : Type} [DecidableEq F] [FnSem F]

/-! ## The results are well-formed -/

theorem good_varHead {v : Head F} (hv : v.isVar = true) : Good (.node v [] : Expr F) :=
  good_node.2 ⟨(by cases v <;> first | trivial | cases hv), (by simp)⟩

theorem good_substCreate {i t r e : Expr F} (hi : Good i) (ht : Good t) (hr : Good r) (h : substCreate i t r = .ok e) : Good e := by
  unfold substCreate at h
  split at h
  · cases h; exact hi
  · split at h
    · cases h
    · split at h
      · cases h; exact hi
      · cases h; exact good_plain trivial (by simpa using ⟨hi, ht, hr⟩)

theorem good_freshVar (fresh : Expr F → Nat → Nat) (e : Expr F) (i : Nat) (s : Expr F) : Good (freshVar fresh e i s) := good_varHead rfl

section
variable {lic : Lic F} {ρ : Env F} {K : Ctors F} (hK : Sound lic ρ K) {fresh : Expr F → Nat → Nat} {arg : Expr F} (harg : Good arg)
include hK

theorem g_chainTerm {n : String} {as : List (Expr F)} {i : Nat} {a d t : Expr F} (has : ∀ x ∈ as, Good x) (ha : Good a) (hd : Good d)
    (h : chainTerm K fresh arg n as i a d = .ok t) : Good t := by
  unfold chainTerm at h
  split at h
  · cases h; exact good_zero
  · obtain ⟨D, h1, h⟩ := andThen_ok h
    obtain ⟨s, h2, h⟩ := andThen_ok h
    have hu : Good (freshVar fresh (.symfn n as) i arg) := good_freshVar ..
    have hf : Good (.symfn n (as.set i (freshVar fresh (.symfn n as) i arg)) : Expr F) := by
      refine good_plain trivial fun x hx => ?_
      rcases List.mem_or_eq_of_mem_set hx with hx | rfl
      · exact has x hx
      · exact hu
    exact g_mul hK hd (good_substCreate (good_derivCreate hf hu h1) hu ha h2) h

theorem g_chainTerms {n : String} {as : List (Expr F)} (has : ∀ x ∈ as, Good x) : ∀ {i : Nat} {l ds ts : List (Expr F)}, (∀ x ∈ l, Good x) → (∀ d ∈ ds, Good d) →
    chainTerms K fresh arg n as i l ds = .ok ts → ∀ t ∈ ts, Good t
  | i, [], ds, ts => fun _ _ h => by unfold chainTerms at h; cases h; simp
  | i, a :: l, [], ts => fun _ _ h => by unfold chainTerms at h; cases h; simp
  | i, a :: l, d :: ds, ts => fun hl hd h => by
    unfold chainTerms at h
    obtain ⟨t, h1, h⟩ := andThen_ok h
    obtain ⟨us, h2, h⟩ := andThen_ok h
    cases h
    intro x hx
    rcases List.mem_cons.1 hx with rfl | hx
    · exact g_chainTerm hK has (hl a (by simp)) (hd d (by simp)) h1
    · exact g_chainTerms has (fun y hy => hl y (by simp [hy])) (fun y hy => hd y (by simp [hy])) h2 x hx

include harg in
theorem g_diffSymfn {n : String} {as ds : List (Expr F)} {r : Expr F} (has : ∀ x ∈ as, Good x) (hds : ∀ d ∈ ds, Good d)
    (h : diffSymfn K fresh arg n as ds = .ok r) : Good r := by
  unfold diffSymfn at h
  split at h
  · cases h; exact good_one
  · split at h
    · cases h; exact good_zero
    · split at h
      · exact good_derivCreate (show Good (.symfn n as) from good_plain trivial has) harg h
      · obtain ⟨ts, h1, h⟩ := andThen_ok h
        exact (hK.add _ _ (g_chainTerms hK has has hds h1) h).1

include harg in
theorem g_diffSubst {inner : Unit → Res (Expr F)} {i t r di dr e : Expr F} (hi : Good i) (ht : Good t) (hr : Good r) (hdi : Good di) (hdr : Good dr)
    (hin : ∀ d, inner () = .ok d → Good d) (h : diffSubst K fresh arg inner i t r di dr = .ok e) : Good e := by
  have hs : Good (.subst i t r : Expr F) := good_plain trivial (by simpa using ⟨hi, ht, hr⟩)
  unfold diffSubst at h
  split at h
  · exact good_derivCreate hs harg h
  · split at h
    · exact good_substCreate hdi ht hr h
    · obtain ⟨q, h1, h⟩ := andThen_ok h
      obtain ⟨p, h2, h⟩ := andThen_ok h
      obtain ⟨s, h3, h⟩ := andThen_ok h
      refine g_add hK (g_mul hK hdr ?_ h2) (good_substCreate hdi ht hr h3) h
      unfold diffReplacement at h1
      split at h1
      · obtain ⟨d, h4, h1⟩ := andThen_ok h1
        exact good_substCreate (hin d h4) ht hr h1
      · split at h1
        · exact good_derivCreate hs hr h1
        · have hu : Good (freshVar fresh (.subst i t r) 0 r) := good_freshVar ..
          obtain ⟨a, h4, h1⟩ := andThen_ok h1
          obtain ⟨b, h5, h1⟩ := andThen_ok h1
          exact good_substCreate (good_derivCreate (good_substCreate hi ht hu h4) hu h5) hu hr h1

theorem g_chainRules {m : Nat} : ∀ (k : Nat) {arg : Expr F}, Good arg → GoodOther (chainRules K m fresh k arg)
  | k, arg, harg, .node hd as, ds, r, hg, hds, h => by
    have has := (good_node.1 hg).2
    unfold chainRules at h
    split at h
    · rename_i heq; cases heq
      exact g_diffSymfn hK harg has hds h
    · rename_i heq; cases heq
      exact g_diffSubst hK harg (has _ (by simp)) (has _ (by simp)) (has _ (by simp)) (hds _ (by simp)) (hds _ (by simp)) (fun d hd => by cases hd) h
    · rename_i k i t r' di _ dr heq; cases heq
      have ht : Good t := has _ (by simp)
      refine g_diffSubst hK harg (has _ (by simp)) ht (has _ (by simp)) (hds _ (by simp)) (hds _ (by simp)) (fun d hd => ?_) h
      unfold diff at hd
      rw [if_neg (by decide)] at hd
      split at hd
      · change diffTimes _ 1 i = _ at hd
        unfold diffTimes at hd
        obtain ⟨d', hd', hd⟩ := andThen_ok hd
        unfold diffTimes at hd
        cases hd
        exact g_diffE (D := ⟨K, m, t, .constant, chainRules K m fresh k t⟩) hK ht (g_chainRules k ht) (has _ (by simp)) hd'
      · cases hd
    · cases h
end

/-! ## Values of deferred nodes -/

theorem eval_opaq_deriv (ρ : Env F) (f x : Expr F) (n : Nat) : eval ρ (.deriv f x n) = ρ.opaq ρ.leaf (.deriv f x n) := by
  rw [eval]; rfl
theorem eval_opaq_subst (ρ : Env F) (e t r : Expr F) : eval ρ (.subst e t r) = ρ.opaq ρ.leaf (.subst e t r) := by
  rw [eval]; rfl

theorem Calculus.setVar {ρ : Env F} (h : Calculus ρ) (v : Expr F) (z : ℂ) : Calculus (ρ.setVar v z) := ⟨h.subst, h.deriv, h.higher⟩
theorem Calculus.along {ρ : Env F} (h : Calculus ρ) (v : Expr F) (t : ℝ) : Calculus (along ρ v t) := h.setVar v t

theorem setVar_self {ρ : Env F} {v : Head F} (z : ℂ) : (ρ.setVar (.node v []) z).leaf v = some z := by
  simp [Env.setVar, identical_iff]

theorem setVar_setVar (ρ : Env F) (v : Expr F) (z w : ℂ) : (ρ.setVar v z).setVar v w = ρ.setVar v w := by
  unfold Env.setVar
  congr 1
  funext h
  dsimp only
  split_ifs <;> rfl

theorem setVar_comm (ρ : Env F) {v y : Head F} (hvy : y ≠ v) (z w : ℂ) :
    (ρ.setVar (.node v []) z).setVar (.node y []) w = (ρ.setVar (.node y []) w).setVar (.node v []) z := by
  unfold Env.setVar
  congr 1
  funext h
  dsimp only
  by_cases h1 : identical (.node h []) (.node v [] : Expr F) = true
  · have h2 : ¬ identical (.node h []) (.node y [] : Expr F) = true := by
      rw [identical_iff] at h1 ⊢
      intro h2
      rw [h1] at h2
      cases h2
      exact hvy rfl
    rw [if_neg h2, if_pos h1, if_pos h1]
  · rw [if_neg h1, if_neg h1]

theorem along_along (ρ : Env F) (v : Expr F) (s t : ℝ) : along (along ρ v s) v t = along ρ v t := setVar_setVar ..

theorem withLeaf_self (ρ : Env F) : ρ.withLeaf ρ.leaf = ρ := rfl

/-- A deferred first derivative has the value of the derivative. -/
theorem eval_deriv_one {ρ : Env F} (hC : Calculus ρ) {x : Head F} (hx : x.isVar = true) {e : Expr F} {t₀ : ℝ} {g : ℝ → ℂ} {g' : ℂ}
    (h : HasDer (along ρ (.node x [])) t₀ (fun σ => eval σ e) g g') : eval (along ρ (.node x []) t₀) (.deriv e (.node x []) 1) = some g' := by
  rw [eval_opaq_deriv, (hC.along _ _).deriv _ _ _ _ hx]
  refine ⟨t₀, g, setVar_self _, ?_, h.2⟩
  filter_upwards [h.1] with t ht
  rw [withLeaf_self, along_along]; exact ht

theorem eval_deriv_succ {ρ : Env F} (hC : Calculus ρ) {x : Head F} (hx : x.isVar = true) {e : Expr F} {n : Nat} {t₀ : ℝ} {g : ℝ → ℂ} {g' : ℂ}
    (h : HasDer (along ρ (.node x [])) t₀ (fun σ => eval σ (.deriv e (.node x []) (n + 1))) g g') :
    eval (along ρ (.node x []) t₀) (.deriv e (.node x []) (n + 2)) = some g' := by
  rw [eval_opaq_deriv, (hC.along _ _).higher _ _ _ _ _ hx]
  refine ⟨t₀, g, setVar_self _, ?_, h.2⟩
  filter_upwards [h.1] with t ht
  rw [withLeaf_self, along_along]; exact ht

/-- What `derivative::create` makes has the value of the derivative. -/
theorem derivCreate_val {ρ : Env F} (hC : Calculus ρ) {v : Head F} (hv : v.isVar = true) {e d : Expr F} (he : Good e)
    (hpos : ∀ f x n, e = .deriv f x n → ∃ k, n = k + 1) {t₀ : ℝ} {g : ℝ → ℂ} {g' : ℂ}
    (h : HasDer (along ρ (.node v [])) t₀ (fun σ => eval σ e) g g') (hd : derivCreate e (.node v []) 1 = .ok d) : HasVal (along ρ (.node v []) t₀) d g' := by
  refine ⟨good_derivCreate he (good_varHead hv) hd, ?_⟩
  unfold derivCreate at hd
  rw [if_neg (by decide), show (Expr.node v [] : Expr F).head = v from rfl, hv] at hd
  change derivCreate.derivNode e (.node v []) 1 = .ok d at hd
  unfold derivCreate.derivNode at hd
  split at hd
  · rename_i f y k
    split at hd
    · rename_i hid
      rw [identical_iff] at hid
      subst hid
      cases hd
      obtain ⟨j, rfl⟩ := hpos _ _ _ rfl
      exact eval_deriv_succ hC hv h
    · cases hd; exact eval_deriv_one hC hv h
  · cases hd; exact eval_deriv_one hC hv h

/-- A deferred substitution has the value of its input at the value of the replacement. -/
theorem eval_subst_val {ρ : Env F} (hC : Calculus ρ) {y : Head F} (hy : y.isVar = true) {e r : Expr F} {z w : ℂ} (hr : eval ρ r = some z)
    (he : eval (ρ.setVar (.node y []) z) e = some w) : eval ρ (.subst e (.node y []) r) = some w := by
  rw [eval_opaq_subst, hC.subst _ _ _ _ hy, withLeaf_self, hr]; exact he

theorem eval_numeric {ρ ρ' : Env F} {e : Expr F} (h : isNumeric e = true) : eval ρ e = eval ρ' e := by
  obtain ⟨hd, as⟩ := e
  refine eval_leaf_const ?_ ?_ <;> cases hd <;> first | rfl | cases h

/-- What `substitution::create` makes has the value of the input at the value of the replacement. -/
theorem substCreate_val {ρ : Env F} (hC : Calculus ρ) {y : Head F} (hy : y.isVar = true) {e r d : Expr F} {z w : ℂ} (hr : eval ρ r = some z)
    (he : eval (ρ.setVar (.node y []) z) e = some w) (h : substCreate e (.node y []) r = .ok d) : eval ρ d = some w := by
  unfold substCreate at h
  by_cases h1 : isNumeric e = true
  · rw [if_pos h1] at h; cases h
    rw [eval_numeric h1]; exact he
  · rw [if_neg h1] at h
    split at h
    · cases h
    · split at h
      · rename_i hid
        rw [identical_iff] at hid
        subst hid
        cases h
        rw [← he]
        rw [eval_var_node hy] at hr
        congr 1
        unfold Env.setVar
        obtain ⟨l, s, o⟩ := ρ
        congr 1
        funext h
        dsimp only
        split_ifs with h3
        · rw [identical_iff] at h3; cases h3; exact hr
        · rfl
      · cases h; exact eval_subst_val hC hy hr he

theorem over_setVar {ρ : Env F} {v : Head F} {z : ℂ} : ∀ e : Expr F, Plain e → Avoids (.node v []) e →
    Over (fun h as => h.plain = true ∧ (h.isVar = true → as = [] → (ρ.setVar (.node v []) z).leaf h = ρ.leaf h)) e
  | .node h as => by
    intro hp ha
    obtain ⟨hp1, hp2⟩ := plain_node.1 hp
    obtain ⟨ha1, ha2⟩ := over_node.1 ha
    refine over_node.2 ⟨⟨hp1, fun _ has => ?_⟩, fun a hm => over_setVar a (hp2 a hm) (ha2 a hm)⟩
    subst has
    exact if_neg (fun h3 => ha1 ((identical_iff _ _).1 h3))

/-- The value of a plain expression does not depend on a variable that does not occur. -/
theorem eval_setVar {ρ : Env F} {v : Head F} {e : Expr F} {z : ℂ} (hp : Plain e) (ha : Avoids (.node v []) e) : eval (ρ.setVar (.node v []) z) e = eval ρ e :=
  eval_congr (ρ := ρ) (ρ' := ρ.setVar (.node v []) z) rfl e (over_setVar e hp ha)

/-! ## Declared functions -/

theorem seqO_ofFn : ∀ {n : Nat} (z : Fin n → ℂ), seqO (List.ofFn fun i => some (z i)) = some (List.ofFn z)
  | 0, _ => rfl
  | n + 1, z => by
    rw [List.ofFn_succ, List.ofFn_succ, seqO, seqO_ofFn fun i => z i.succ]; rfl

theorem sumO_ofFn : ∀ {n : Nat} (z : Fin n → ℂ), sumO (List.ofFn fun i => some (z i)) = some (∑ i, z i)
  | 0, _ => rfl
  | n + 1, z => by
    rw [List.ofFn_succ, sumO_cons, sumO_ofFn fun i => z i.succ, Fin.sum_univ_succ]; rfl

theorem map_ofFn_eq {as : List (Expr F)} {f : Expr F → Option ℂ} {z : Fin as.length → ℂ} (h : ∀ i : Fin as.length, f as[i] = some (z i)) :
    as.map f = List.ofFn fun i => some (z i) := by
  refine List.ext_getElem (by simp) fun i h1 h2 => ?_
  rw [List.getElem_map, List.getElem_ofFn]
  exact h ⟨i, by simpa using h1⟩

/-- The value of an invocation. -/
theorem eval_symfn_ofFn {ρ : Env F} {n : String} {as : List (Expr F)} {z : Fin as.length → ℂ} (h : ∀ i : Fin as.length, eval ρ as[i] = some (z i)) :
    eval ρ (.symfn n as) = ρ.symfn n (List.ofFn z) := by
  rw [eval_symfn, map_ofFn_eq h, seqO_ofFn]; rfl

theorem chainTerms_forall {K : Ctors F} {fresh : Expr F → Nat → Nat} {arg : Expr F} {n : String} {as : List (Expr F)} :
    ∀ {i : Nat} {l ds ts : List (Expr F)}, l.length = ds.length → chainTerms K fresh arg n as i l ds = .ok ts → ts.length = l.length ∧
      ∀ (j : Nat) (h1 : j < l.length) (h2 : j < ds.length) (h3 : j < ts.length), chainTerm K fresh arg n as (i + j) l[j] ds[j] = .ok ts[j]
  | i, [], [], ts => fun _ h => by
    unfold chainTerms at h; cases h
    exact ⟨rfl, fun j h1 => absurd h1 (by simp)⟩
  | i, [], d :: ds, ts => fun hl _ => by cases hl
  | i, a :: l, [], ts => fun hl _ => by cases hl
  | i, a :: l, d :: ds, ts => fun hl h => by
    unfold chainTerms at h
    obtain ⟨t, h1, h⟩ := andThen_ok h
    obtain ⟨us, h2, h⟩ := andThen_ok h
    cases h
    obtain ⟨h3, h4⟩ := chainTerms_forall (Nat.succ.inj hl) h2
    refine ⟨by simp [h3], fun j j1 j2 j3 => ?_⟩
    cases j with
    | zero => exact h1
    | succ j =>
      have := h4 j (by simpa using j1) (by simpa using j2) (by simpa using j3)
      rw [show i + (j + 1) = i + 1 + j by omega]
      exact this

/-- The value of one term of the chain rule. -/
theorem chainTerm_val {K : Ctors F} {lic : Lic F} {ρ : Env F} (hK : Sound lic ρ K) (hl : lic.TrueAt ρ) (hC : Calculus ρ) {fresh : Expr F → Nat → Nat}
    (hfresh : IsFresh fresh) {arg : Expr F} {n : String} {as : List (Expr F)} (hg : ∀ a ∈ as, Good a) (hp : ∀ a ∈ as, Plain a)
    {f : (Fin as.length → ℝ) → ℂ} {L : (Fin as.length → ℝ) →L[ℝ] ℂ} {p₀ : Fin as.length → ℝ} (hv : ∀ i : Fin as.length, eval ρ as[i] = some (p₀ i : ℂ))
    (hf : HasFDerivAt f L p₀) (hn : ∀ᶠ p in 𝓝 p₀, ρ.symfn n (List.ofFn fun i => (p i : ℂ)) = some (f p))
    (i : Fin as.length) {d t : Expr F} {d' : ℂ} (hd : HasVal ρ d d') (h : chainTerm K fresh arg n as i as[i] d = .ok t) :
    eval ρ t = some (d' * L (Pi.single i 1)) := by
  unfold chainTerm at h
  by_cases hz : isInt 0 d = true
  · rw [if_pos hz] at h; cases h
    rw [hv_isZero hd.2 hz, zero_mul]
    exact hv_zero.2
  · rw [if_neg hz] at h
    dsimp only at h
    obtain ⟨D, h1, h⟩ := andThen_ok h
    obtain ⟨s, h2, h⟩ := andThen_ok h
    have hi : as[i] ∈ as := List.getElem_mem _
    have havoid : ∀ a ∈ as, Avoids (freshVar fresh (.symfn n as) i arg) a := (over_node.1 (hfresh (.symfn n as) i (numberSet arg))).2
    have hgu : Good (freshVar fresh (.symfn n as) i arg) := good_freshVar ..
    obtain ⟨u, hu⟩ : ∃ u : Head F, u = .uniq (fresh (.symfn n as) i) (numberSet arg) := ⟨_, rfl⟩
    have huv : u.isVar = true := by rw [hu]; rfl
    rw [show freshVar fresh (.symfn n as) i arg = .node u [] by rw [hu]; rfl] at h1 h2 havoid hgu
    have hgf : Good (.symfn n (as.set i (.node u [])) : Expr F) := by
      refine good_plain trivial fun x hx => ?_
      rcases List.mem_or_eq_of_mem_set hx with hx | rfl
      · exact hg x hx
      · exact hgu
    -- the value of the invocation with the new variable
    have hval : ∀ x : ℝ, eval (along ρ (.node u []) x) (.symfn n (as.set i (.node u []))) = ρ.symfn n (List.ofFn fun j => ((Function.update p₀ i x j : ℝ) : ℂ)) := by
      intro x
      rw [eval_symfn]
      have : (as.set i (.node u [])).map (eval (along ρ (.node u []) x)) = List.ofFn fun j => some ((Function.update p₀ i x j : ℝ) : ℂ) := by
        refine List.ext_getElem (by simp) fun j h1 h2 => ?_
        have hj : j < as.length := by simpa using h1
        rw [List.getElem_map, List.getElem_ofFn, List.getElem_set]
        by_cases hij : (i : Nat) = j
        · rw [if_pos hij, eval_var_node huv]
          have : (⟨j, hj⟩ : Fin as.length) = i := Fin.ext hij.symm
          rw [show (⟨j, _⟩ : Fin as.length) = i from this, Function.update_self]
          exact setVar_self _
        · rw [if_neg hij]
          have hne : (⟨j, hj⟩ : Fin as.length) ≠ i := fun h => hij (by rw [← h])
          rw [Function.update_of_ne hne]
          have hm : as[j] ∈ as := List.getElem_mem _
          rw [show eval (along ρ (.node u []) x) as[j] = eval ρ as[j] from eval_setVar (hp _ hm) (havoid _ hm)]
          exact hv ⟨j, hj⟩
      rw [this, seqO_ofFn]; rfl
    have hder : HasDer (along ρ (.node u [])) (p₀ i) (fun σ => eval σ (.symfn n (as.set i (.node u [])))) (fun x => f (Function.update p₀ i x)) (L (Pi.single i 1)) := by
      have hup : HasDerivAt (fun x : ℝ => Function.update p₀ i x) (Pi.single i (1 : ℝ)) (p₀ i) := hasDerivAt_update p₀ i (p₀ i)
      have hup0 : Function.update p₀ i (p₀ i) = p₀ := Function.update_eq_self _ _
      refine ⟨?_, ?_⟩
      · have := hup.continuousAt.tendsto
        rw [hup0] at this
        filter_upwards [this.eventually hn] with x hx
        rw [hval x]; exact hx
      · have hf' : HasFDerivAt f L (Function.update p₀ i (p₀ i)) := by rw [hup0]; exact hf
        exact hf'.comp_hasDerivAt (p₀ i) hup
    have hD := derivCreate_val hC huv hgf (fun _ _ _ he => by cases he) hder h1
    have hs := substCreate_val hC huv (hv i) hD.2 h2
    exact (hv_mul hK hl hd ⟨good_substCreate hD.1 hgu (hg _ hi) h2, hs⟩ h).2

/-- The rule for declared functions computes the derivative. -/
theorem symfn_ok {D : DiffCfg F} {lic : Lic F} {ρ₀ : Env F} {v : Head F} {t₀ : ℝ} {m k : Nat} {fresh : Expr F → Nat → Nat}
    (hK : Sound lic (along ρ₀ (.node v []) t₀) D.K) (hl : lic.TrueAt (along ρ₀ (.node v []) t₀)) (hC : Calculus ρ₀) (hfresh : IsFresh fresh)
    (hv : v.isVar = true) (harg : D.arg = .node v []) (hO : D.other = chainRules D.K m fresh k D.arg) {n : String} {as : List (Expr F)}
    (hg : ∀ a ∈ as, Good a) (hs : FnSmooth (along ρ₀ (.node v [])) t₀ n as) (has : ∀ a ∈ as, DiffOk D (along ρ₀ (.node v [])) t₀ a) :
    DiffOk D (along ρ₀ (.node v [])) t₀ (.symfn n as) := by
  obtain ⟨f, p₀, hp₀, ⟨L, hf⟩, hn⟩ := hs.diff
  choose g g' hder hd using fun i : Fin as.length => has as[i] (List.getElem_mem _)
  have hreal : ∀ i, ∀ᶠ t in 𝓝 t₀, (g i t).im = 0 := fun i => (hder i).real (hs.real _ (List.getElem_mem _))
  have him : ∀ i, (g' i).im = 0 := fun i => deriv_im_zero (hder i).2 (hreal i)
  have hg0 : ∀ i, g i t₀ = (p₀ i : ℂ) := fun i => (hder i).at_eq (hp₀ i)
  have hcurve : HasDerivAt (fun t i => (g i t).re) (fun i => (g' i).re) t₀ := hasDerivAt_pi.2 fun i => hasDerivAt_re (hder i).2
  have hc0 : (fun i => (g i t₀).re) = p₀ := funext fun i => by rw [hg0, ofReal_re]
  have hval : ∀ᶠ t in 𝓝 t₀, eval (along ρ₀ (.node v []) t) (.symfn n as) = some (f fun i => (g i t).re) := by
    have h1 : ∀ᶠ t in 𝓝 t₀, ∀ i, eval (along ρ₀ (.node v []) t) as[i] = some (((g i t).re : ℝ) : ℂ) := by
      rw [eventually_all]
      intro i
      filter_upwards [(hder i).1, hreal i] with t h1 h2
      rw [h1]
      congr 1
      exact Complex.ext (by simp) (by simp [h2])
    have h2 := hcurve.continuousAt.tendsto
    rw [hc0] at h2
    filter_upwards [h1, h2.eventually hn] with t h3 h4
    rw [eval_symfn_ofFn h3]; exact h4
  have hfc : HasDerivAt (fun t => f fun i => (g i t).re) (L fun i => (g' i).re) t₀ := by
    have hf' : HasFDerivAt f L (fun i => (g i t₀).re) := by rw [hc0]; exact hf
    exact hf'.comp_hasDerivAt t₀ hcurve
  have hL : L (fun i => (g' i).re) = ∑ i, g' i * L (Pi.single i 1) := by
    conv_lhs => rw [← Finset.univ_sum_single (fun i => (g' i).re)]
    rw [map_sum]
    refine Finset.sum_congr rfl fun i _ => ?_
    have h1 : (Pi.single i (g' i).re : Fin as.length → ℝ) = (g' i).re • Pi.single i 1 := by
      rw [← Pi.single_smul, smul_eq_mul, mul_one]
    rw [h1, map_smul, Complex.real_smul]
    congr 1
    exact Complex.ext (by simp) (by simp [him i])
  refine ⟨_, _, ⟨hval, hfc⟩, fun d hd' => ?_⟩
  have hgarg : Good D.arg := by rw [harg]; exact good_varHead hv
  have hge : Good (.symfn n as : Expr F) := good_plain trivial hg
  have hgO : GoodOther D.other := by rw [hO]; exact g_chainRules hK k hgarg
  refine ⟨g_diffE hK hgarg hgO hge hd', ?_⟩
  have hd1 : andThen (diffs D as) (D.other (.symfn n as)) = .ok d := by rw [← hd', diffE]; rfl
  obtain ⟨ds, hds, hd1⟩ := andThen_ok hd1
  rw [hO] at hd1
  have hd2 : diffSymfn D.K fresh D.arg n as ds = .ok d := by
    rw [← hd1]; unfold chainRules; rfl
  have hall := diffs_forall hds
  have hlen := hall.length_eq
  have hdsv : ∀ i : Fin as.length, HasVal (along ρ₀ (.node v []) t₀) (ds[(i : Nat)]'(hlen ▸ i.2)) (g' i) := fun i => hd i _ (hall.get i.2 (hlen ▸ i.2))
  unfold diffSymfn at hd2
  rw [if_neg (by rw [identical_iff, harg]; intro he; cases he; cases hv)] at hd2
  by_cases hz : ds.all (isInt 0) = true
  · rw [if_pos hz] at hd2; cases hd2
    have : L (fun i => (g' i).re) = 0 := by
      rw [hL]
      refine Finset.sum_eq_zero fun i _ => ?_
      rw [List.all_eq_true] at hz
      rw [hv_isZero (hdsv i).2 (hz _ (List.getElem_mem _)), zero_mul]
    rw [this]; exact hv_zero.2
  · rw [if_neg hz] at hd2
    by_cases h1 : (ds.filter (isInt 0)).length + 1 = ds.length ∧ (ds.filter (isInt 1)).length = 1
    · rw [if_pos h1, harg] at hd2
      exact (derivCreate_val hC hv hge (fun _ _ _ he => by cases he) ⟨hval, hfc⟩ hd2).2
    · rw [if_neg h1] at hd2
      obtain ⟨ts, hts, hd2⟩ := andThen_ok hd2
      obtain ⟨htl, ht⟩ := chainTerms_forall hlen hts
      have hgds : ∀ x ∈ ds, Good x := g_diffs hK hgarg hgO hg hds
      refine (hK.add _ _ (g_chainTerms hK hg hg hgds hts) hd2).2 hl _ ?_
      have : ts.map (eval (along ρ₀ (.node v []) t₀)) = List.ofFn fun i : Fin as.length => some (g' i * L (Pi.single i 1)) := by
        refine List.ext_getElem (by simp [htl]) fun j h1 h2 => ?_
        have hj : j < as.length := by simpa using h2
        rw [List.getElem_map, List.getElem_ofFn]
        have h3 := ht j hj (hlen ▸ hj) (by simpa using h1)
        rw [Nat.zero_add] at h3
        exact chainTerm_val hK hl (hC.along _ _) hfresh hg hs.plain hp₀ hf hn ⟨j, hj⟩ (hdsv ⟨j, hj⟩) h3
      rw [this, sumO_ofFn, hL]

/-! ## Deferred derivatives -/

theorem const_deriv {c : Option ℂ} {s : ℝ} {z : ℂ} :
    (∃ (t₀ : ℝ) (g : ℝ → ℂ), some (s : ℂ) = some (t₀ : ℂ) ∧ (∀ᶠ t in 𝓝 t₀, c = some (g t)) ∧ HasDerivAt g z t₀) ↔ c.isSome = true ∧ z = 0 := by
  constructor
  · rintro ⟨t₀, g, -, h1, h2⟩
    have h0 := h1.self_of_nhds
    refine ⟨by rw [h0]; rfl, ?_⟩
    have : HasDerivAt g 0 t₀ := (hasDerivAt_const t₀ (g t₀)).congr_of_eventuallyEq (by
      filter_upwards [h1] with t ht
      rw [h0] at ht
      exact (Option.some.inj ht).symm)
    exact h2.unique this
  · rintro ⟨h1, rfl⟩
    obtain ⟨w, rfl⟩ := Option.isSome_iff_exists.1 h1
    exact ⟨s, fun _ => w, rfl, .of_forall fun _ => rfl, hasDerivAt_const _ _⟩

theorem setVar_other {ρ : Env F} {v x : Head F} (h : x ≠ v) (z : ℂ) : (ρ.setVar (.node v []) z).leaf x = ρ.leaf x := by
  refine if_neg fun hid => ?_
  rw [identical_iff] at hid
  cases hid
  exact h rfl

/-- A deferred derivative of a plain expression does not depend on a variable that does not occur in the expression. -/
theorem deriv_const {v x : Head F} (hx : x.isVar = true) {f : Expr F} (hp : Plain f) (ha : Avoids (.node v []) f) :
    ∀ (n : Nat) {ρ : Env F}, Calculus ρ → ∀ s t : ℝ,
      eval (along ρ (.node v []) s) (.deriv f (.node x []) (n + 1)) = eval (along ρ (.node v []) t) (.deriv f (.node x []) (n + 1)) := by
  have main : ∀ (n : Nat) {ρ : Env F}, Calculus ρ → ∀ s : ℝ, ∀ z, (eval (along ρ (.node v []) s) (.deriv f (.node x []) (n + 1)) = some z ↔
      ∃ (t₀ : ℝ) (g : ℝ → ℂ), (along ρ (.node v []) s).leaf x = some (t₀ : ℂ) ∧
        (∀ᶠ t in 𝓝 t₀, (match n with
          | 0 => eval (along (along ρ (.node v []) s) (.node x []) t) f
          | m + 1 => eval (along (along ρ (.node v []) s) (.node x []) t) (.deriv f (.node x []) (m + 1))) = some (g t)) ∧ HasDerivAt g z t₀) := by
    intro n ρ hC s z
    cases n with
    | zero => rw [eval_opaq_deriv, (hC.along _ _).deriv _ _ _ _ hx]; rfl
    | succ m => rw [eval_opaq_deriv, (hC.along _ _).higher _ _ _ _ _ hx]; rfl
  intro n
  induction n with
  | zero =>
    intro ρ hC s t
    refine Option.ext fun z => ?_
    rw [main 0 hC s z, main 0 hC t z]
    dsimp only
    by_cases hvx : x = v
    · subst hvx
      have h1 : ∀ s u : ℝ, eval (along (along ρ (.node x []) s) (.node x []) u) f = eval ρ f := fun s u => by
        rw [along_along]; exact eval_setVar hp ha
      have h2 : ∀ s : ℝ, (along ρ (.node x []) s).leaf x = some (s : ℂ) := fun s => setVar_self _
      simp only [h1, h2]
      rw [const_deriv, const_deriv]
    · have h1 : ∀ s u : ℝ, eval (along (along ρ (.node v []) s) (.node x []) u) f = eval (along ρ (.node x []) u) f := fun s u => by
        unfold along
        rw [setVar_comm _ hvx]; exact eval_setVar hp ha
      have h2 : ∀ s : ℝ, (along ρ (.node v []) s).leaf x = ρ.leaf x := fun s => setVar_other hvx _
      simp only [h1, h2]
  | succ m ih =>
    intro ρ hC s t
    refine Option.ext fun z => ?_
    rw [main (m + 1) hC s z, main (m + 1) hC t z]
    dsimp only
    by_cases hvx : x = v
    · subst hvx
      have h1 : ∀ s u : ℝ, eval (along (along ρ (.node x []) s) (.node x []) u) (.deriv f (.node x []) (m + 1)) =
          eval (along ρ (.node x []) 0) (.deriv f (.node x []) (m + 1)) := fun s u => by
        rw [along_along]; exact ih hC u 0
      have h2 : ∀ s : ℝ, (along ρ (.node x []) s).leaf x = some (s : ℂ) := fun s => setVar_self _
      simp only [h1, h2]
      rw [const_deriv, const_deriv]
    · have h1 : ∀ s u : ℝ, eval (along (along ρ (.node v []) s) (.node x []) u) (.deriv f (.node x []) (m + 1)) =
          eval (along (along ρ (.node x []) u) (.node v []) 0) (.deriv f (.node x []) (m + 1)) := fun s u => by
        have h3 : along (along ρ (.node v []) s) (.node x []) u = along (along ρ (.node x []) u) (.node v []) s := setVar_comm _ hvx _ _
        rw [h3]
        exact ih (hC.along _ _) s 0
      have h2 : ∀ s : ℝ, (along ρ (.node v []) s).leaf x = ρ.leaf x := fun s => setVar_other hvx _
      simp only [h1, h2]

theorem deriv_ok {D : DiffCfg F} {ρ₀ : Env F} {v : Head F} {t₀ : ℝ} (hC : Calculus ρ₀) (hv : v.isVar = true) (harg : D.arg = .node v []) {e : Expr F}
    {cs : List (Expr F)} (hg : Good e) (hs : DeclaredDeriv (along ρ₀ (.node v [])) v t₀ e cs) : DiffOk D (along ρ₀ (.node v [])) t₀ e := by
  obtain ⟨f, x, n, rfl, -, hx, hover, hdep, g, g', h1, h2⟩ := hs
  refine ⟨g, g', ⟨h1, h2⟩, fun d hd => ?_⟩
  obtain ⟨hc1, hc2⟩ := C15_dependence D v hv harg f (.node x []) (n + 1) hover
  by_cases ha : Avoids (.node v []) f
  · rw [hc1 ha] at hd; cases hd
    have hp : Plain f := hdep.resolve_right fun h => h ha
    have hconst := deriv_const hx hp ha n hC
    have h0 := h1.self_of_nhds
    have : HasDerivAt g 0 t₀ := (hasDerivAt_const t₀ (g t₀)).congr_of_eventuallyEq (by
      filter_upwards [h1] with t ht
      rw [hconst t t₀, h0] at ht
      exact (Option.some.inj ht).symm)
    rw [h2.unique this]; exact hv_zero
  · rw [hc2 ha] at hd
    exact derivCreate_val hC hv hg (fun _ _ _ he => ⟨n, by cases he; rfl⟩) ⟨h1, h2⟩ hd

/-! ## Deferred substitutions -/

theorem diffE_subst {D : DiffCfg F} {m k : Nat} {fresh : Expr F → Nat → Nat} (hO : D.other = chainRules D.K m fresh k D.arg) {i t r d : Expr F}
    (h : diffE D (.subst i t r) = .ok d) : ∃ di dt dr inner, diffE D i = .ok di ∧ diffE D t = .ok dt ∧ diffE D r = .ok dr ∧
      diffSubst D.K fresh D.arg inner i t r di dr = .ok d ∧
      (∀ q, inner () = .ok q → ∃ k', diff ⟨D.K, m, t, .constant, chainRules D.K m fresh k' t⟩ i 1 = .ok q) := by
  have h1 : andThen (diffs D [i, t, r]) (D.other (.subst i t r)) = .ok d := by rw [← h, diffE]; rfl
  obtain ⟨ds, hds, h1⟩ := andThen_ok h1
  obtain _ | ⟨hi, _ | ⟨ht, _ | ⟨hr, _ | _⟩⟩⟩ := diffs_forall hds
  rename_i di dt dr
  rw [hO] at h1
  cases k with
  | zero => exact ⟨di, dt, dr, _, hi, ht, hr, (by rw [← h1]; unfold chainRules; rfl), fun q hq => by cases hq⟩
  | succ k => exact ⟨di, dt, dr, fun _ => diff ⟨D.K, m, t, .constant, chainRules D.K m fresh k t⟩ i 1, hi, ht, hr, (by rw [← h1]; unfold chainRules; rfl), fun q hq => ⟨k, hq⟩⟩

theorem isFunctionOf_leaf {v y : Head F} (hv : v.isVar = true) (hy : y.isVar = true) : isFunctionOf (.node v []) (.node y [] : Expr F) = decide (y = v) := by
  have h := isFunctionOf_var hv (.node y []) (over_node.2 ⟨fun _ => rfl, by simp⟩)
  by_cases hyv : y = v
  · subst hyv
    rw [decide_eq_true rfl]
    rw [← Bool.not_eq_false, h]
    intro ha
    exact (over_node.1 ha).1 rfl
  · rw [decide_eq_false hyv, h]
    refine over_node.2 ⟨fun he => ?_, by simp⟩
    cases he; exact hyv rfl

theorem own_ok {D : DiffCfg F} {lic : Lic F} {m k : Nat} {fresh : Expr F → Nat → Nat} {ρ₀ : Env F} {v : Head F} {t₀ : ℝ} (hC : Calculus ρ₀) (hv : v.isVar = true)
    (harg : D.arg = .node v []) (hO : D.other = chainRules D.K m fresh k D.arg) {e : Expr F}
    {cs : List (Expr F)} (hg : Good e) (hs : DeclaredOwn (along ρ₀ (.node v [])) v t₀ e cs) : DiffOk D (along ρ₀ (.node v [])) t₀ e := by
  obtain ⟨i, r, rfl, -, g, g', h1, h2⟩ := hs
  refine ⟨g, g', ⟨h1, h2⟩, fun d hd => ?_⟩
  obtain ⟨di, dt, dr, inner, -, -, -, h3, -⟩ := diffE_subst hO hd
  unfold diffSubst at h3
  rw [harg, isFunctionOf_leaf hv hv, if_pos (decide_eq_true rfl)] at h3
  exact derivCreate_val hC hv hg (fun _ _ _ he => by cases he) ⟨h1, h2⟩ h3

theorem subst_ok {D : DiffCfg F} {lic : Lic F} {m k : Nat} {fresh : Expr F → Nat → Nat} {ρ₀ : Env F} {v y : Head F} {t₀ s₀ : ℝ}
    (hK : Sound lic (along ρ₀ (.node v []) t₀) D.K) (hl : lic.TrueAt (along ρ₀ (.node v []) t₀)) (hC : Calculus ρ₀) (hv : v.isVar = true) (hy : y.isVar = true)
    (hyv : y ≠ v) (harg : D.arg = .node v []) (hO : D.other = chainRules D.K m fresh k D.arg) {i r : Expr F} (hgi : Good i) (hgr : Good r)
    (hrr : RealNear (along ρ₀ (.node v [])) t₀ r) (hr0 : eval (along ρ₀ (.node v []) t₀) r = some (s₀ : ℂ)) (hr : DiffOk D (along ρ₀ (.node v [])) t₀ r)
    {Φ : ℝ × ℝ → ℂ} (hΦ : DifferentiableAt ℝ Φ (s₀, t₀))
    (hΦv : ∀ᶠ p in 𝓝 (s₀, t₀), eval ((along ρ₀ (.node v []) p.2).setVar (.node y []) (p.1 : ℂ)) i = some (Φ p))
    (hi : DiffOk D (along (ρ₀.setVar (.node y []) (s₀ : ℂ)) (.node v [])) t₀ i)
    (hin : ∀ k', DiffOk ⟨D.K, m, .node y [], .constant, chainRules D.K m fresh k' (.node y [])⟩ (along (along ρ₀ (.node v []) t₀) (.node y [])) s₀ i) :
    DiffOk D (along ρ₀ (.node v [])) t₀ (.subst i (.node y []) r) := by
  obtain ⟨gr, gr', hr1, hr2⟩ := hr
  obtain ⟨gi, gi', hi1, hi2⟩ := hi
  obtain ⟨L, hL⟩ := hΦ
  have him := hr1.real hrr
  have him' : gr'.im = 0 := deriv_im_zero hr1.2 him
  have hgr0 : gr t₀ = (s₀ : ℂ) := hr1.at_eq hr0
  have hcurve : HasDerivAt (fun t => ((gr t).re, t)) (gr'.re, (1 : ℝ)) t₀ := (hasDerivAt_re hr1.2).prodMk (hasDerivAt_id t₀)
  have hc0 : ((gr t₀).re, t₀) = (s₀, t₀) := by rw [hgr0, ofReal_re]
  have hval : ∀ᶠ t in 𝓝 t₀, eval (along ρ₀ (.node v []) t) (.subst i (.node y []) r) = some (Φ ((gr t).re, t)) := by
    have h2 := hcurve.continuousAt.tendsto
    rw [hc0] at h2
    filter_upwards [hr1.1, him, h2.eventually hΦv] with t h3 h4 h5
    refine eval_subst_val (hC.along _ _) hy h3 ?_
    rw [← h5]
    congr 2
    exact Complex.ext (by simp) (by simp [h4])
  have hΦc : HasDerivAt (fun t => Φ ((gr t).re, t)) (L (gr'.re, 1)) t₀ := by
    have hf' : HasFDerivAt Φ L ((fun t => ((gr t).re, t)) t₀) := by show HasFDerivAt Φ L ((gr t₀).re, t₀); rw [hc0]; exact hL
    exact hf'.comp_hasDerivAt (f := fun t => ((gr t).re, t)) t₀ hcurve
  -- the partial derivatives
  have hpt : gi' = L (0, 1) := by
    have h1 : HasDerivAt (fun t => Φ (s₀, t)) (L (0, 1)) t₀ := hL.comp_hasDerivAt t₀ ((hasDerivAt_const t₀ s₀).prodMk (hasDerivAt_id t₀))
    have h2 : Tendsto (fun t : ℝ => (s₀, t)) (𝓝 t₀) (𝓝 (s₀, t₀)) := (continuous_const.prodMk continuous_id).tendsto t₀
    refine hi1.2.unique (h1.congr_of_eventuallyEq ?_)
    filter_upwards [hi1.1, h2.eventually hΦv] with t h3 h4
    have h5 : along (ρ₀.setVar (.node y []) (s₀ : ℂ)) (.node v []) t = (along ρ₀ (.node v []) t).setVar (.node y []) (s₀ : ℂ) := (setVar_comm _ hyv _ _).symm
    rw [h5, h4] at h3
    exact (Option.some.inj h3).symm
  have hps : ∀ {g : ℝ → ℂ} {g' : ℂ}, HasDer (along (along ρ₀ (.node v []) t₀) (.node y [])) s₀ (fun σ => eval σ i) g g' → g' = L (1, 0) := by
    intro g g' hg
    have h1 : HasDerivAt (fun s => Φ (s, t₀)) (L (1, 0)) s₀ := hL.comp_hasDerivAt s₀ ((hasDerivAt_id s₀).prodMk (hasDerivAt_const s₀ t₀))
    have h2 : Tendsto (fun s : ℝ => (s, t₀)) (𝓝 s₀) (𝓝 (s₀, t₀)) := (continuous_id.prodMk continuous_const).tendsto s₀
    refine hg.2.unique (h1.congr_of_eventuallyEq ?_)
    filter_upwards [hg.1, h2.eventually hΦv] with s h3 h4
    have h5 : eval ((along ρ₀ (.node v []) t₀).setVar (.node y []) (s : ℂ)) i = some (g s) := h3
    rw [h4] at h5
    exact (Option.some.inj h5).symm
  have hsum : L (gr'.re, 1) = gr' * L (1, 0) + L (0, 1) := by
    have h1 : ((gr'.re, 1) : ℝ × ℝ) = gr'.re • (1, 0) + (0, 1) := by ext <;> simp
    rw [h1, map_add, map_smul, Complex.real_smul]
    congr 2
    exact Complex.ext (by simp) (by simp [him'])
  refine ⟨_, _, ⟨hval, hΦc⟩, fun d hd => ?_⟩
  have hgarg : Good D.arg := by rw [harg]; exact good_varHead hv
  have hgy : Good (.node y [] : Expr F) := good_varHead hy
  have hge : Good (.subst i (.node y []) r : Expr F) := good_plain trivial (by simpa using ⟨hgi, hgy, hgr⟩)
  have hgO : GoodOther D.other := by rw [hO]; exact g_chainRules hK k hgarg
  refine ⟨g_diffE hK hgarg hgO hge hd, ?_⟩
  obtain ⟨di, dt, dr, inner, hdi, -, hdr, h3, h4⟩ := diffE_subst hO hd
  have hdiv := hi2 di hdi
  have hdiv' : eval ((along ρ₀ (.node v []) t₀).setVar (.node y []) (s₀ : ℂ)) di = some gi' := by
    rw [← hdiv.2]
    congr 1
    exact setVar_comm _ hyv _ _
  have hdrv := hr2 dr hdr
  unfold diffSubst at h3
  rw [harg, isFunctionOf_leaf hv hy, if_neg (by simpa using hyv)] at h3
  rw [hsum]
  by_cases hz : isInt 0 dr = true
  · rw [if_pos hz] at h3
    rw [hv_isZero hdrv.2 hz, zero_mul, zero_add, ← hpt]
    exact substCreate_val (hC.along _ _) hy hr0 hdiv' h3
  · rw [if_neg hz] at h3
    obtain ⟨q, h5, h3⟩ := andThen_ok h3
    obtain ⟨p, h6, h3⟩ := andThen_ok h3
    obtain ⟨s, h7, h3⟩ := andThen_ok h3
    have hq : HasVal (along ρ₀ (.node v []) t₀) q (L (1, 0)) := by
      unfold diffReplacement at h5
      rw [if_pos (show (Expr.node y [] : Expr F).head.isVar = true from hy)] at h5
      obtain ⟨w, h8, h5⟩ := andThen_ok h5
      obtain ⟨k', h9⟩ := h4 w h8
      unfold diff at h9
      rw [if_neg (by decide), if_pos (by cases y <;> first | (cases hy; done) | rfl)] at h9
      change diffTimes _ 1 i = _ at h9
      unfold diffTimes at h9
      obtain ⟨w', h10, h9⟩ := andThen_ok h9
      unfold diffTimes at h9
      cases h9
      obtain ⟨g, g', hg1, hg2⟩ := hin k'
      have hw := hg2 w h10
      rw [hps hg1] at hw
      exact ⟨good_substCreate hw.1 hgy hgr h5, substCreate_val (hC.along _ _) hy hr0 hw.2 h5⟩
    have hs : HasVal (along ρ₀ (.node v []) t₀) s (L (0, 1)) :=
      ⟨good_substCreate hdiv.1 hgy hgr h7, hpt ▸ substCreate_val (hC.along _ _) hy hr0 hdiv' h7⟩
    exact (hv_add hK hl (hv_mul hK hl hdrv hq h6) hs h3).2

/-! ## The induction -/

theorem chain_ok {lic : Lic F} {n m : Nat} {fresh : Expr F → Nat → Nat} (hfresh : IsFresh fresh) {S : Env F → Prop} (hS : ∀ σ, S σ → lic.TrueAt σ) :
    ∀ (j : Nat) {k : Nat} {ρ₀ : Env F} {v : Head F} {t₀ : ℝ} {beh : NonDiff}, Calculus ρ₀ → v.isVar = true → S (along ρ₀ (.node v []) t₀) →
      ∀ {e : Expr F}, Smooth (Declared S j beh ρ₀ v t₀) beh S (along ρ₀ (.node v [])) t₀ e → Good e →
        DiffOk (chainCfg (ctors lic n) m fresh k (.node v []) beh) (along ρ₀ (.node v [])) t₀ e := by
  intro j
  induction j with
  | zero =>
    intro k ρ₀ v t₀ beh hC hv h₀ e hs hg
    have hK : Sound lic (along ρ₀ (.node v []) t₀) (ctors lic n) := ctors_sound lic _ n
    refine smooth_ok (D := chainCfg (ctors lic n) m fresh k (.node v []) beh) rfl hS hv rfl (g_chainRules hK k (good_varHead hv)) h₀ ?_ ?_ hs hg
    · intro e cs hA hge hcs
      rcases hA with ⟨f, rfl, hA⟩ | hA | hA
      · exact symfn_ok hK (hS _ h₀) hC hfresh hv rfl rfl (fun a ha => (hcs a ha).1) hA (fun a ha => (hcs a ha).2)
      · exact deriv_ok hC hv rfl hge hA
      · exact own_ok (lic := lic) hC hv rfl rfl hge hA
    · intro e cs hA hge c hc
      rcases hA with ⟨f, rfl, hA⟩ | ⟨f, x, l, rfl, rfl, _⟩ | ⟨i, r, rfl, rfl, _⟩
      · exact (good_node.1 hge).2 c hc
      · cases hc
      · cases hc
  | succ j ih =>
    intro k ρ₀ v t₀ beh hC hv h₀ e hs hg
    have hK : Sound lic (along ρ₀ (.node v []) t₀) (ctors lic n) := ctors_sound lic _ n
    refine smooth_ok (D := chainCfg (ctors lic n) m fresh k (.node v []) beh) rfl hS hv rfl (g_chainRules hK k (good_varHead hv)) h₀ ?_ ?_ hs hg
    · intro e cs hA hge hcs
      rcases hA with ⟨f, rfl, hA⟩ | hA | hA | ⟨i, r, y, s₀, rfl, rfl, hy, hyv, hrr, hr0, ⟨Φ, hΦ, hΦv⟩, hSy, hi, hin⟩
      · exact symfn_ok hK (hS _ h₀) hC hfresh hv rfl rfl (fun a ha => (hcs a ha).1) hA (fun a ha => (hcs a ha).2)
      · exact deriv_ok hC hv rfl hge hA
      · exact own_ok (lic := lic) hC hv rfl rfl hge hA
      · have hgs := (good_node.1 hge).2
        have hgi : Good i := hgs _ (by simp)
        refine subst_ok hK (hS _ h₀) hC hv hy hyv rfl rfl hgi (hgs _ (by simp)) hrr hr0 (hcs r (by simp)).2 hΦ hΦv ?_ ?_
        · refine ih (hC.setVar _ _) hv ?_ hi hgi
          have : along (ρ₀.setVar (.node y []) (s₀ : ℂ)) (.node v []) t₀ = (along ρ₀ (.node v []) t₀).setVar (.node y []) (s₀ : ℂ) := (setVar_comm _ hyv _ _).symm
          rw [this]; exact hSy
        · intro k'
          exact ih (k := k') (hC.along _ _) hy hSy hin hgi
    · intro e cs hA hge c hc
      rcases hA with ⟨f, rfl, hA⟩ | ⟨f, x, l, rfl, rfl, _⟩ | ⟨i, r, rfl, rfl, _⟩ | ⟨i, r, y, s₀, rfl, rfl, _⟩
      · exact (good_node.1 hge).2 c hc
      · cases hc
      · cases hc
      · rw [List.mem_singleton.1 hc]
        exact (good_node.1 hge).2 _ (by simp)

end Wf.Sym
