import Verif.Sym.SympySpec
import Verif.Sym.ChainLemmas

/-! # Lemmas: the conversion to SymPy -/

namespace Wf.Sym
open Complex Filter Topology

section
variable {F : Type} [DecidableEq F] [FloatSem F]

/-! ## The meaning of SymPy expressions -/

theorem spEvals_eq (zz : Option ℂ) : ∀ l : List (Sp F), spEvals zz l = l.map (spEval zz)
  | [] => rfl
  | a :: l => by rw [spEvals, spEvals_eq zz l]; rfl

theorem spEval_node (zz : Option ℂ) (h : SpHead F) (as : List (Sp F)) (σ : SpEnv) :
    spEval zz (.node h as) σ = spNode zz h as (as.map (spEval zz)) σ := by rw [spEval, spEvals_eq]

theorem spEval_val (zz : Option ℂ) {h : SpHead F} (h1 : ∀ ns, h ≠ .deriv ns) (h2 : ∀ n, h ≠ .subs n) (as : List (Sp F)) (σ : SpEnv) :
    spEval zz (.node h as) σ = spVal zz σ h (as.map fun a => spEval zz a σ) := by
  rw [spEval_node]
  have : spNode zz h as (as.map (spEval zz)) σ = spVal zz σ h ((as.map (spEval zz)).map fun f => f σ) := by
    cases h <;> first | rfl | exact absurd rfl (h1 _) | exact absurd rfl (h2 _)
  rw [this, List.map_map]; rfl

theorem isSpDeriv_unique {s : SpSym} {φ : SpEnv → Option ℂ} {σ : SpEnv} {z w : ℂ} (hz : IsSpDeriv s φ σ z) (hw : IsSpDeriv s φ σ w) : z = w := by
  obtain ⟨t, g, h1, h2, h3⟩ := hz
  obtain ⟨t', g', h1', h2', h3'⟩ := hw
  rw [h1] at h1'
  have ht : t = t' := by simpa using h1'
  subst ht
  have he : g =ᶠ[𝓝 t] g' := by
    filter_upwards [h2, h2'] with u hu hu'
    rw [hu] at hu'
    simpa using hu'
  exact (h3.congr_of_eventuallyEq he.symm).unique h3'

theorem spDeriv_succ {s : SpSym} {n : Nat} {φ : SpEnv → Option ℂ} {σ : SpEnv} {z : ℂ} :
    spDeriv s (n + 1) φ σ = some z ↔ IsSpDeriv s (spDeriv s n φ) σ z := by
  rw [spDeriv]
  beta_reduce
  by_cases h : ∃ z, IsSpDeriv s (spDeriv s n φ) σ z
  · rw [dif_pos h]
    constructor
    · intro he
      cases he
      exact h.choose_spec
    · intro hz
      rw [isSpDeriv_unique h.choose_spec hz]
  · rw [dif_neg h]
    exact ⟨(fun he => by cases he), (fun hz => absurd ⟨z, hz⟩ h)⟩

theorem asm_injective {s t : NSet} (h : s.asm = t.asm) : s = t := by cases s <;> cases t <;> first | rfl | cases h

theorem deduce_kwargs (s : NSet) : SpAsm.deduce (symbolKwargs s) = s.asm := by cases s <;> rfl

theorem set_asm (n : String) (s : NSet) : (SpSym.mk n s.asm).set = s := by cases s <;> rfl

/-! ## Names -/

theorem dropWhile_none {α : Type} {p : α → Bool} : ∀ {l : List α}, (∀ c ∈ l, p c = false) → l.dropWhile p = l
  | [], _ => rfl
  | a :: l, h => by rw [List.dropWhile_cons, if_neg (by simp [h a (by simp)])]

theorem strip_plain {l : List Char} (h : ∀ c ∈ l, isSymbolChar c = true) : strip l = l := by
  have hw : ∀ c ∈ l, c.isWhitespace = false := fun c hc => by
    have := h c hc
    simp only [isSymbolChar, Bool.and_eq_true, Bool.not_eq_true'] at this
    exact this.1.1.1
  unfold strip
  rw [dropWhile_none hw, dropWhile_none (fun c hc => hw c (by simpa using hc)), List.reverse_reverse]

theorem sympySymbols_plain {n : String} (h : PlainName n) : sympySymbols n = .ok n := by
  unfold sympySymbols
  rw [strip_plain h.2]
  have h1 : n.toList.isEmpty = false := by
    cases hl : n.toList with
    | nil => exact absurd (String.toList_eq_nil_iff.1 hl) h.1
    | cons a l => rfl
  rw [h1, if_neg (by simp), if_pos (List.all_eq_true.2 h.2), String.ofList_toList]

end

variable {F : Type} [DecidableEq F] [FnSem F]

/-- The function of SymPy with the meaning of `f`. -/
def spFnOf (f : BuiltIn) : SpFn := (SpFn.all.find? fun g => g.meaning == f).getD .cos

theorem sympyAttr_meaning (f : BuiltIn) : ∃ g, sympyAttr (sympyName f) = some g ∧ g.meaning = f := by
  refine ⟨spFnOf f, ?_, ?_⟩ <;> cases f <;> decide

theorem SameValues.set {ρ : Env F} {σ : SpEnv} (h : SameValues ρ σ) (n : String) (s : NSet) (z : ℂ) :
    SameValues (ρ.setVar (.var n s) z) (σ.set ⟨n, s.asm⟩ z) where
  sym n' s' hn := by
    show (if (SpSym.mk n' s'.asm) = ⟨n, s.asm⟩ then some z else σ.sym ⟨n', s'.asm⟩) =
      if identical (.node (.var n' s') []) (.var n s : Expr F) then some z else ρ.leaf (.var n' s')
    by_cases he : n' = n ∧ s' = s
    · obtain ⟨rfl, rfl⟩ := he
      rw [if_pos rfl, if_pos (identical_self _)]
    · rw [if_neg, if_neg, h.sym n' s' hn]
      · intro hi
        have := (identical_iff _ _).1 hi
        simp only [Expr.node.injEq, Head.var.injEq, and_true] at this
        exact he this
      · intro hi
        simp only [SpSym.mk.injEq] at hi
        exact he ⟨hi.1, asm_injective hi.2⟩
  fn := h.fn

theorem toSympys_forall : ∀ {as : List (Expr F)} {ss : List (Sp F)}, toSympys as = .ok ss → List.Forall₂ (fun a s => toSympy a = .ok s) as ss
  | [], ss, h => by rw [toSympys] at h; cases h; exact .nil
  | a :: as, ss, h => by
    rw [toSympys] at h
    obtain ⟨s, h1, h⟩ := andThen_ok h
    obtain ⟨t, h2, h⟩ := andThen_ok h
    cases h
    exact .cons h1 (toSympys_forall h2)

/-- `s` has the value of `e`. -/
def SpCarries (zz : Option ℂ) (ρ : Env F) (σ : SpEnv) (e : Expr F) (s : Sp F) : Prop := ∀ z, eval ρ e = some z → spEval zz s σ = some z

theorem sp_sum {zz : Option ℂ} {ρ : Env F} {σ : SpEnv} {as : List (Expr F)} {ss : List (Sp F)} (h : List.Forall₂ (SpCarries zz ρ σ) as ss) (z : ℂ)
    (hz : sumO (as.map (eval ρ)) = some z) : sumO (ss.map fun s => spEval zz s σ) = some z := by
  induction h generalizing z with
  | nil => exact hz
  | cons h1 _ ih =>
    rw [List.map_cons, sumO_cons] at hz ⊢
    obtain ⟨x, y, hx, hy, rfl⟩ := addO_eq_some.1 hz
    rw [h1 x hx, ih y hy]; rfl

theorem sp_prod {zz : Option ℂ} {ρ : Env F} {σ : SpEnv} {as : List (Expr F)} {ss : List (Sp F)} (h : List.Forall₂ (SpCarries zz ρ σ) as ss) (z : ℂ)
    (hz : prodO (as.map (eval ρ)) = some z) : prodO (ss.map fun s => spEval zz s σ) = some z := by
  induction h generalizing z with
  | nil => exact hz
  | cons h1 _ ih =>
    rw [List.map_cons, prodO_cons] at hz ⊢
    obtain ⟨x, y, hx, hy, rfl⟩ := mulO_eq_some.1 hz
    rw [h1 x hx, ih y hy]; rfl

theorem sp_seq {zz : Option ℂ} {ρ : Env F} {σ : SpEnv} {as : List (Expr F)} {ss : List (Sp F)} (h : List.Forall₂ (SpCarries zz ρ σ) as ss) (z : List ℂ)
    (hz : seqO (as.map (eval ρ)) = some z) : seqO (ss.map fun s => spEval zz s σ) = some z := by
  induction h generalizing z with
  | nil => exact hz
  | @cons a b as bs h1 _ ih =>
    simp only [List.map_cons, seqO] at hz ⊢
    cases ha : eval ρ a with
    | none => simp [ha] at hz
    | some x =>
      simp only [ha, Option.bind_some] at hz
      cases hs : seqO (as.map (eval ρ)) with
      | none => simp [hs] at hz
      | some y =>
        simp only [hs, Option.map_some, Option.some.injEq] at hz
        rw [h1 x ha, ih y hs, ← hz]; rfl

theorem relVal_spRel (op : RelOp) (a b : ℂ) : spRelVal (sympyRel op) a b = relVal op a b := by cases op <;> rfl

/-- A condition that is identical to `a < b` and is not a constant is this relation. -/
theorem relCreate_lt_node {a b r : Expr F} (h : relCreate .lt a b = .ok r) (hb : ∀ t, r ≠ .bconst t) : r = .rel .lt a b := by
  unfold relCreate at h
  split at h
  · cases h
  · split at h
    · cases h
    · cases h; exact absurd rfl (hb _)
    · cases h; rfl

theorem relVal_lt {a b z : ℂ} (h : relVal .lt a b = some z) : a.im = 0 ∧ b.im = 0 ∧ (z = 1 ∧ a.re < b.re ∨ z = 0 ∧ b.re ≤ a.re) := by
  change (if a.im = 0 ∧ b.im = 0 then some (if a.re < b.re then (1 : ℂ) else 0) else none) = some z at h
  by_cases hi : a.im = 0 ∧ b.im = 0
  · rw [if_pos hi] at h
    by_cases hl : a.re < b.re
    · rw [if_pos hl] at h; cases h; exact ⟨hi.1, hi.2, Or.inl ⟨rfl, hl⟩⟩
    · rw [if_neg hl] at h; cases h; exact ⟨hi.1, hi.2, Or.inr ⟨rfl, not_lt.1 hl⟩⟩
  · rw [if_neg hi] at h; cases h

theorem extremeO_pair {pick : ℝ → ℝ → ℝ} {a b : ℂ} (ha : a.im = 0) (hb : b.im = 0) : extremeO pick [some a, some b] = some ((pick a.re b.re : ℝ) : ℂ) := by
  have h : ∀ w ∈ [a, b], w.im = 0 := by simp [ha, hb]
  simp only [extremeO, seqO, Option.bind_some, Option.map_some]
  rw [if_pos h]; rfl

theorem ofReal_re_eq {a : ℂ} (ha : a.im = 0) : ((a.re : ℝ) : ℂ) = a := by apply Complex.ext <;> simp [ha]

/-- A conditional whose condition is `a < b`. -/
theorem eval_cond_lt {ρ : Env F} {a b x y : Expr F} {z : ℂ} (h : eval ρ (.cond (.rel .lt a b) x y) = some z) : ∃ u v, eval ρ a = some u ∧ eval ρ b = some v ∧
    u.im = 0 ∧ v.im = 0 ∧ (u.re < v.re ∧ eval ρ x = some z ∨ v.re ≤ u.re ∧ eval ρ y = some z) := by
  rw [eval_cond, eval_rel] at h
  unfold condO relO at h
  cases ha : eval ρ a with
  | none => simp [ha] at h
  | some u =>
    cases hb : eval ρ b with
    | none => simp [ha, hb] at h
    | some v =>
      rw [ha, hb] at h
      simp only [Option.bind_some] at h
      cases hr : relVal .lt u v with
      | none => simp [hr] at h
      | some w =>
        rw [hr] at h
        simp only [Option.bind_some] at h
        obtain ⟨h1, h2, h3⟩ := relVal_lt hr
        refine ⟨u, v, rfl, rfl, h1, h2, ?_⟩
        rcases h3 with ⟨rfl, h3⟩ | ⟨rfl, h3⟩
        · rw [if_pos rfl] at h; exact Or.inl ⟨h3, h⟩
        · rw [if_neg (by norm_num), if_pos rfl] at h; exact Or.inr ⟨h3, h⟩

theorem toSympyCond_ok {zz : Option ℂ} {ρ : Env F} {σ : SpEnv} {c x y : Expr F} {c' x' y' s : Sp F} (hc : SpCarries zz ρ σ c c') (hx : SpCarries zz ρ σ x x')
    (hy : SpCarries zz ρ σ y y') (hb : ∀ b, c ≠ .bconst b) (h : toSympyCond c x y c' x' y' = .ok s) : SpCarries zz ρ σ (.cond c x y) s := by
  intro z hz
  unfold toSympyCond at h
  obtain ⟨r, hr, h⟩ := andThen_ok h
  split at h
  · rename_i hi
    cases h
    obtain rfl := (identical_iff _ _).1 hi
    obtain rfl := relCreate_lt_node hr hb
    obtain ⟨u, v, hu, hv, h1, h2, h3⟩ := eval_cond_lt hz
    rw [spEval_val zz (by simp) (by simp)]
    show extremeO max [spEval zz x' σ, spEval zz y' σ] = some z
    rw [hx v hv, hy u hu, extremeO_pair h2 h1]
    rcases h3 with ⟨h3, h4⟩ | ⟨h3, h4⟩
    · rw [hv] at h4; cases h4
      rw [max_eq_left h3.le, ofReal_re_eq h2]
    · rw [hu] at h4; cases h4
      rw [max_eq_right h3, ofReal_re_eq h1]
  · obtain ⟨r', hr', h⟩ := andThen_ok h
    split at h
    · rename_i hi
      cases h
      obtain rfl := (identical_iff _ _).1 hi
      obtain rfl := relCreate_lt_node hr' hb
      obtain ⟨u, v, hu, hv, h1, h2, h3⟩ := eval_cond_lt hz
      rw [spEval_val zz (by simp) (by simp)]
      show extremeO min [spEval zz x' σ, spEval zz y' σ] = some z
      rw [hx u hu, hy v hv, extremeO_pair h1 h2]
      rcases h3 with ⟨h3, h4⟩ | ⟨h3, h4⟩
      · rw [hu] at h4; cases h4
        rw [min_eq_left h3.le, ofReal_re_eq h1]
      · rw [hv] at h4; cases h4
        rw [min_eq_right h3, ofReal_re_eq h2]
    · cases h
      rw [spEval_val zz (by simp) (by simp)]
      show condO (spEval zz c' σ) (spEval zz x' σ) (condO (spEval zz (.node .true []) σ) (spEval zz y' σ) none) = some z
      rw [eval_cond] at hz
      refine condO_carry hc hx (fun w hw => ?_) z hz
      rw [spEval_val zz (by simp) (by simp)]
      show condO (some 1) (spEval zz y' σ) none = some w
      simp [condO, hy w hw]

theorem toSympy_var {n : String} {s : NSet} {x : Sp F} (hn : PlainName n) (h : toSympy (.var n s : Expr F) = .ok x) : x = .node (.symbol ⟨n, s.asm⟩) [] := by
  rw [toSympy, toSympys] at h
  change andThen (sympySymbols n) _ = _ at h
  rw [sympySymbols_plain hn] at h
  cases h
  rw [deduce_kwargs]

/-- A variable that is converted is a named variable. -/
theorem toSympy_isVar {v : Head F} {x : Sp F} (hv : v.isVar = true) (h : toSympy (.node v [] : Expr F) = .ok x) : ∃ n s, v = .var n s := by
  cases v with
  | var n s => exact ⟨n, s, rfl⟩
  | argVar n i t => rw [toSympy, toSympys] at h; cases h
  | uniq i s => rw [toSympy, toSympys] at h; cases h
  | _ => cases hv

/-- Derivatives. -/
theorem to_deriv {zz : Option ℂ} {f : Expr F} {f' : Sp F} {n : String} {s : NSet}
    (ih : ∀ ρ σ, Calculus ρ → SameValues ρ σ → SpCarries zz ρ σ f f') (hn : PlainName n) : ∀ (k : Nat) (ρ : Env F) (σ : SpEnv), Calculus ρ → SameValues ρ σ →
    ∀ z, eval ρ (.deriv f (.var n s) (k + 1)) = some z → spDeriv ⟨n, s.asm⟩ (k + 1) (spEval zz f') σ = some z
  | 0, ρ, σ, hC, hv, z, hz => by
    rw [eval_opaq_deriv] at hz
    obtain ⟨t₀, g, h1, h2, h3⟩ := (hC.deriv ρ.leaf f (.var n s) z rfl).1 hz
    rw [spDeriv_succ]
    refine ⟨t₀, g, by rw [hv.sym n s hn]; exact h1, ?_, h3⟩
    filter_upwards [h2] with t ht
    exact ih _ _ (hC.along _ t) (hv.set n s t) _ ht
  | k + 1, ρ, σ, hC, hv, z, hz => by
    rw [eval_opaq_deriv] at hz
    obtain ⟨t₀, g, h1, h2, h3⟩ := (hC.higher ρ.leaf f (.var n s) k z rfl).1 hz
    rw [spDeriv_succ]
    refine ⟨t₀, g, by rw [hv.sym n s hn]; exact h1, ?_, h3⟩
    filter_upwards [h2] with t ht
    exact to_deriv ih hn k _ _ (hC.along _ t) (hv.set n s t) _ ht

theorem leaf_args {ρ : Env F} {h : Head F} {as : List (Expr F)} {z : ℂ} (hl : h.isLeaf = true) (hz : eval ρ (.node h as) = some z) : as = [] := by
  cases as with
  | nil => rfl
  | cons a as => rw [eval_leaf_args hl] at hz; cases hz

/-- Boolean expressions have the values zero and one. -/
theorem boolean_value {ρ : Env F} {c : Expr F} {z : ℂ} (hc : isBoolean c = true) (hz : eval ρ c = some z) : z = 1 ∨ z = 0 := by
  obtain ⟨h, as⟩ := c
  cases h with
  | bconst b =>
    obtain rfl := leaf_args rfl hz
    rw [eval_bconst] at hz
    cases b <;> cases hz
    · exact Or.inr rfl
    · exact Or.inl rfl
  | rel op =>
    rw [eval, evals_eq] at hz
    rcases as with _ | ⟨a, _ | ⟨b, _ | ⟨c, as⟩⟩⟩
    · cases hz
    · cases hz
    · change ((eval ρ a).bind fun x => (eval ρ b).bind fun y => relVal op x y) = some z at hz
      cases h2 : eval ρ a with
      | none => simp [h2] at hz
      | some u =>
        cases h3 : eval ρ b with
        | none => simp [h2, h3] at hz
        | some w =>
          rw [h2, h3] at hz
          simp only [Option.bind_some] at hz
          cases op <;> simp only [relVal] at hz
          · by_cases hi : u.im = 0 ∧ w.im = 0
            · rw [if_pos hi] at hz
              by_cases hl : u.re < w.re
              · rw [if_pos hl] at hz; cases hz; exact Or.inl rfl
              · rw [if_neg hl] at hz; cases hz; exact Or.inr rfl
            · rw [if_neg hi] at hz; cases hz
          · by_cases hi : u.im = 0 ∧ w.im = 0
            · rw [if_pos hi] at hz
              by_cases hl : u.re ≤ w.re
              · rw [if_pos hl] at hz; cases hz; exact Or.inl rfl
              · rw [if_neg hl] at hz; cases hz; exact Or.inr rfl
            · rw [if_neg hi] at hz; cases hz
          · by_cases hl : u = w
            · rw [if_pos hl] at hz; cases hz; exact Or.inl rfl
            · rw [if_neg hl] at hz; cases hz; exact Or.inr rfl
    · cases hz
  | _ => cases hc

theorem forall₂_one {α β : Type} {R : α → β → Prop} {a : α} {ss : List β} (h : List.Forall₂ R [a] ss) : ∃ s, ss = [s] ∧ R a s := by
  obtain _ | ⟨h1, ⟨_⟩⟩ := h
  exact ⟨_, rfl, h1⟩

theorem forall₂_two {α β : Type} {R : α → β → Prop} {a b : α} {ss : List β} (h : List.Forall₂ R [a, b] ss) : ∃ s t, ss = [s, t] ∧ R a s ∧ R b t := by
  obtain _ | ⟨h1, h⟩ := h
  obtain ⟨t, rfl, h2⟩ := forall₂_one h
  exact ⟨_, _, rfl, h1, h2⟩

theorem forall₂_three {α β : Type} {R : α → β → Prop} {a b c : α} {ss : List β} (h : List.Forall₂ R [a, b, c] ss) :
    ∃ s t u, ss = [s, t, u] ∧ R a s ∧ R b t ∧ R c u := by
  obtain _ | ⟨h1, h⟩ := h
  obtain ⟨t, u, rfl, h2, h3⟩ := forall₂_two h
  exact ⟨_, _, _, rfl, h1, h2, h3⟩

theorem forall₂_carry {α β : Type} {R Q : α → β → Prop} {as : List α} {ss : List β} (h : List.Forall₂ R as ss) (hQ : ∀ a ∈ as, ∀ s, R a s → Q a s) :
    List.Forall₂ Q as ss := by
  induction h with
  | nil => exact .nil
  | cons h1 _ ih => exact .cons (hQ _ (by simp) _ h1) (ih fun a ha => hQ a (by simp [ha]))

theorem toSympy_ok (zz : Option ℂ) : ∀ (e : Expr F) (s : Sp F), Over ToSympyNode e → toSympy e = .ok s →
    ∀ ρ σ, Calculus ρ → SameValues ρ σ → SpCarries zz ρ σ e s
  | .node h as, s, ho, hs, ρ, σ, hC, hv => by
    intro z hz
    obtain ⟨ho1, ho2⟩ := over_node.1 ho
    rw [toSympy] at hs
    obtain ⟨ss, h1, hs⟩ := andThen_ok hs
    have hf := toSympys_forall h1
    have hrec : ∀ a ∈ as, ∀ s, toSympy a = .ok s → ∀ ρ σ, Calculus ρ → SameValues ρ σ → SpCarries zz ρ σ a s :=
      fun a ha s hs => toSympy_ok zz a s (ho2 a ha) hs
    have hr : List.Forall₂ (SpCarries zz ρ σ) as ss := forall₂_carry hf fun a ha s hs => hrec a ha s hs ρ σ hC hv
    have hval : ∀ {h' : SpHead F}, (∀ ns, h' ≠ .deriv ns) → (∀ n, h' ≠ .subs n) → ∀ {l : List (Sp F)}, spVal zz σ h' (l.map fun a => spEval zz a σ) = some z →
        spEval zz (.node h' l) σ = some z := fun h1 h2 l h => by rw [spEval_val zz h1 h2]; exact h
    cases h with
    | add => cases hs; rw [eval_add] at hz; exact hval (by simp) (by simp) (sp_sum hr z hz)
    | mul => cases hs; rw [eval_mul] at hz; exact hval (by simp) (by simp) (sp_prod hr z hz)
    | pow =>
      cases hs
      refine hval (by simp) (by simp) ?_
      rw [eval, evals_eq] at hz
      rcases hr with _ | ⟨ha, _ | ⟨hb, _ | ⟨_, _⟩⟩⟩
      · cases hz
      · cases hz
      · rename_i a a' b b'
        change powO (eval ρ a) (eval ρ b) = some z at hz
        show ((spEval zz a' σ).bind fun z => (spEval zz b' σ).bind fun w => spPow zz z w) = some z
        unfold powO at hz
        cases h2 : eval ρ a with
        | none => simp [h2] at hz
        | some u =>
          cases h3 : eval ρ b with
          | none => simp [h2, h3] at hz
          | some w =>
            rw [h2, h3] at hz
            simp only [Option.bind_some] at hz
            rw [ha u h2, hb w h3]
            simp only [Option.bind_some]
            unfold spPow
            rw [if_neg]
            · exact hz
            · rintro ⟨rfl, rfl⟩
              simp [powVal] at hz
      · cases hz
    | fn f =>
      change (match sympyAttr (sympyName f) with | some g => _ | none => _) = _ at hs
      obtain ⟨g, hg, hm⟩ := sympyAttr_meaning f
      rw [hg] at hs
      cases hs
      refine hval (by simp) (by simp) ?_
      rw [eval_fn] at hz
      cases h2 : seqO (as.map (eval ρ)) with
      | none => simp [h2] at hz
      | some l =>
        rw [h2] at hz
        show (seqO (ss.map fun a => spEval zz a σ)).bind (fnVal g.meaning) = some z
        rw [sp_seq hr l h2, hm]
        exact hz
    | bconst b =>
      cases hs
      obtain rfl := leaf_args rfl hz
      rw [eval_bconst] at hz
      cases b <;> (cases hz; exact hval (by simp) (by simp) rfl)
    | zoo =>
      obtain rfl := leaf_args rfl hz
      rw [eval] at hz; cases hz
    | cond =>
      rcases hr with _ | ⟨hc, _ | ⟨hx, _ | ⟨hy, _ | ⟨_, _⟩⟩⟩⟩
      · cases hs
      · cases hs
      · cases hs
      · exact toSympyCond_ok hc hx hy ho1 hs z hz
      · cases hs
    | deriv n =>
      rcases as with _ | ⟨f, _ | ⟨x, _ | ⟨_, _⟩⟩⟩
      · cases hf; cases hs
      · obtain _ | ⟨_, ⟨_⟩⟩ := hf; cases hs
      · obtain ⟨f', x', rfl, hf1, hx1⟩ := forall₂_two hf
        cases hs
        obtain ⟨hn, v, hvar, rfl⟩ := ho1
        obtain ⟨nm, st, rfl⟩ := toSympy_isVar hvar hx1
        have hp : PlainName nm := (over_node.1 (ho2 (.var nm st) (by simp))).1
        obtain rfl := toSympy_var hp hx1
        obtain ⟨k, rfl⟩ := Nat.exists_eq_succ_of_ne_zero hn
        rw [spEval_node]
        show spDerivs [(⟨nm, st.asm⟩, k + 1)] (spEval zz f') σ = some z
        exact to_deriv (hrec f (by simp) f' hf1) hp k ρ σ hC hv z hz
      · cases ss <;> cases hs
    | flt f => cases hs; obtain rfl := leaf_args rfl hz; rw [eval] at hz; exact hval (by simp) (by simp) hz
    | imag => cases hs; obtain rfl := leaf_args rfl hz; rw [eval] at hz; exact hval (by simp) (by simp) hz
    | int n => cases hs; obtain rfl := leaf_args rfl hz; rw [eval] at hz; exact hval (by simp) (by simp) hz
    | iverson =>
      rcases as with _ | ⟨c, _ | ⟨_, _⟩⟩
      · cases hr; cases hs
      · obtain ⟨c', rfl, hc⟩ := forall₂_one hr
        cases hs
        refine hval (by simp) (by simp) ?_
        rw [eval_iverson] at hz
        show condO (spEval zz c' σ) (spEval zz (.node (.integer 1) []) σ)
          (condO (spEval zz (.node .true []) σ) (spEval zz (.node (.integer 0) []) σ) none) = some z
        rw [hc z hz, spEval_val zz (by simp) (by simp), spEval_val zz (by simp) (by simp), spEval_val zz (by simp) (by simp)]
        show condO (some z) (some ((1 : ℤ) : ℂ)) (condO (some 1) (some ((0 : ℤ) : ℂ)) none) = some z
        rcases boolean_value ho1 hz with rfl | rfl <;> simp [condO]
      · rw [eval, evals_eq] at hz; cases hz
    | rat r =>
      cases hs; obtain rfl := leaf_args rfl hz; rw [eval] at hz
      refine hval (by simp) (by simp) ?_
      exact hz
    | rel op =>
      cases hs
      refine hval (by simp) (by simp) ?_
      rw [eval, evals_eq] at hz
      rcases hr with _ | ⟨ha, _ | ⟨hb, _ | ⟨_, _⟩⟩⟩
      · cases hz
      · cases hz
      · rename_i a a' b b'
        change ((eval ρ a).bind fun x => (eval ρ b).bind fun y => relVal op x y) = some z at hz
        show ((spEval zz a' σ).bind fun x => (spEval zz b' σ).bind fun y => spRelVal (sympyRel op) x y) = some z
        cases h2 : eval ρ a with
        | none => simp [h2] at hz
        | some u =>
          cases h3 : eval ρ b with
          | none => simp [h2, h3] at hz
          | some w =>
            rw [h2, h3] at hz
            rw [ha u h2, hb w h3]
            simp only [Option.bind_some] at hz ⊢
            rw [relVal_spRel]; exact hz
      · cases hz
    | subst =>
      rcases as with _ | ⟨f, _ | ⟨x, _ | ⟨p, _ | ⟨_, _⟩⟩⟩⟩
      · cases hf; cases hs
      · cases ss <;> cases hs
      · cases ss <;> cases hs
      · obtain ⟨f', x', p', rfl, hf1, hx1, hp1⟩ := forall₂_three hf
        cases hs
        obtain ⟨v, hvar, rfl⟩ := ho1
        obtain ⟨nm, st, rfl⟩ := toSympy_isVar hvar hx1
        have hp : PlainName nm := (over_node.1 (ho2 (.var nm st) (by simp))).1
        obtain rfl := toSympy_var hp hx1
        rw [eval_opaq_subst, hC.subst ρ.leaf f p (.var nm st) rfl] at hz
        change ((eval ρ p).bind fun w => eval (ρ.setVar (.var nm st) w) f) = some z at hz
        cases h2 : eval ρ p with
        | none => simp [h2] at hz
        | some w =>
          rw [h2] at hz
          simp only [Option.bind_some] at hz
          have hpw := hrec p (by simp) p' hp1 ρ σ hC hv w h2
          have := hrec f (by simp) f' hf1 _ _ (hC.setVar (.var nm st) w) (hv.set nm st w) z hz
          rw [spEval_node]
          show (match [spEval zz f', spEval zz (.node (.symbol ⟨nm, st.asm⟩) []), spEval zz p'], some [SpSym.mk nm st.asm], seqO [spEval zz p' σ] with
            | f :: _, some xs, some zs => if xs.length = 1 ∧ zs.length = 1 then f (σ.setAll (xs.zip zs)) else none
            | _, _, _ => none) = some z
          rw [hpw]
          exact this
      · cases ss <;> cases hs
    | const c => cases c <;> (cases hs; obtain rfl := leaf_args rfl hz; rw [eval] at hz; exact hval (by simp) (by simp) hz)
    | symfn n =>
      cases hs
      refine hval (by simp) (by simp) ?_
      rw [eval_symfn] at hz
      cases h2 : seqO (as.map (eval ρ)) with
      | none => simp [h2] at hz
      | some l =>
        rw [h2] at hz
        show (seqO (ss.map fun a => spEval zz a σ)).bind (σ.fn n) = some z
        rw [sp_seq hr l h2, hv.fn]
        exact hz
    | undef =>
      obtain rfl := leaf_args rfl hz
      rw [eval] at hz; cases hz
    | uneval =>
      cases hs
      refine hval (by simp) (by simp) ?_
      rw [eval, evals_eq] at hz
      rcases hr with _ | ⟨ha, _ | ⟨_, _⟩⟩
      · cases hz
      · exact ha z hz
      · cases hz
    | var n st =>
      obtain rfl := leaf_args rfl hz
      have h2 := toSympy_var (F := F) (n := n) (s := st) (x := s) ho1 (by rw [toSympy, h1]; exact hs)
      rw [h2]
      refine hval (by simp) (by simp) ?_
      rw [eval] at hz
      show σ.sym ⟨n, st.asm⟩ = some z
      rw [hv.sym n st ho1]; exact hz
    | argVar n i t => cases hs
    | uniq i t => cases hs
    | elem i => cases hs
    | stop => cases hs
    | matrix r c => cases hs
    | call f => cases hs
    | typeArg n t => cases hs
    | construct t => cases hs

end Wf.Sym
