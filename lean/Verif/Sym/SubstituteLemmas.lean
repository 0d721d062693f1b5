import Verif.Sym.SubstituteModel
import Verif.Sym.ClosureLemmas

/-! # Substituting variables is evaluation in an updated assignment -/

namespace Wf.Sym
open Complex

variable {F : Type} [DecidableEq F] [FnSem F]

/-- The nodes whose value is defined by their own kind and the values of their children: everything except elements of compound expressions,
derivatives and substitutions that are not carried out, matrices and calls of user-defined functions. -/
def Head.plain (h : Head F) : Bool := h.interpreted || h.isLeaf

/-- Every node is plain. -/
def Plain (e : Expr F) : Prop := Over (fun h _ => h.plain = true) e

theorem plain_node {h : Head F} {as : List (Expr F)} : Plain (.node h as) ↔ h.plain = true ∧ ∀ a ∈ as, Plain a := over_node

theorem plain_basic : Basic (F := F) (fun h _ => h.plain = true) := by
  constructor <;> intros <;> first | rfl | assumption

/-- The assignment in which every variable that is a target has the value of its replacement. -/
noncomputable def Env.bindAll (ρ : Env F) (σ : List (Expr F × Expr F)) : Env F :=
  { ρ with leaf := fun h => match findKey (.node h []) σ with
      | some r => eval ρ r
      | none => ρ.leaf h }

theorem findKey_mem {k v : Expr F} {l : List (Expr F × Expr F)} (h : findKey k l = some v) : (k, v) ∈ l := by
  obtain ⟨l1, l2, rfl, _⟩ := findKey_split h
  simp

theorem eval_var_node {ρ : Env F} {h : Head F} (hv : h.isVar = true) : eval ρ (.node h []) = ρ.leaf h := by
  cases h <;> first | (rw [eval, evals_eq]; rfl) | cases hv

theorem eval_leaf_args {ρ : Env F} {h : Head F} {a : Expr F} {as : List (Expr F)} (hv : h.isLeaf = true) : eval ρ (.node h (a :: as)) = none := by
  rw [eval, evals_eq]
  cases h <;> first | rfl | cases hv

/-- A leaf that is not a variable has the same value in every assignment. -/
theorem eval_leaf_const {ρ ρ' : Env F} {h : Head F} {as : List (Expr F)} (hl : h.isLeaf = true) (hv : h.isVar = false) :
    eval ρ' (.node h as) = eval ρ (.node h as) := by
  cases as with
  | cons a as => rw [eval_leaf_args hl, eval_leaf_args hl]
  | nil =>
    rw [eval, eval, evals_eq, evals_eq]
    cases h <;> first | rfl | (cases hv; done) | (cases hl; done)

theorem leaf_of_plain {h : Head F} (hp : h.plain = true) (hi : h.interpreted = false) : h.isLeaf = true := by
  simpa [Head.plain, hi] using hp

theorem leaf_of_not_interp {h : Head F} (hp : h.plain = true) (hl : h.isLeaf = false) : h.interpreted = true := by
  simpa [Head.plain, hl] using hp

section
variable {lic : Lic F} {ρ : Env F} {K : Ctors F}

/-- Substituting variables: the new expression has the value of the old one in the updated assignment. -/
theorem substVars_ok (hK : Sound lic ρ K) {m : Nat} {σ : List (Expr F × Expr F)} (hσ : ∀ p ∈ σ, (p.1.head.isVar = true ∨ p.1.head.plain = false) ∧ Good p.2) :
    ∀ (n : Nat) (e r : Expr F), Plain e → Good e → substVars K m n σ e = .ok r → Carries lic (ρ.bindAll σ) ρ e r
  | 0, _, _, _, _, h => by cases h
  | n + 1, .node hd as, r, hp, hg, h => by
    obtain ⟨hp1, hp2⟩ := plain_node.1 hp
    change substVarsBody K m σ (substVars K m n σ) (.node hd as) = .ok r at h
    unfold substVarsBody at h
    cases hf : findKey (.node hd as) σ with
    | some r' =>
      simp only [hf, Except.ok.injEq] at h
      subst h
      obtain ⟨h1, h2⟩ := hσ _ (findKey_mem hf)
      have hv : hd.isVar = true := by
        rcases h1 with h1 | h1
        · exact h1
        · rw [show (Expr.node hd as).head = hd from rfl, hp1] at h1; cases h1
      have hl : hd.isLeaf = true := by cases hd <;> first | rfl | cases hv
      refine ⟨h2, fun _ z hz => ?_⟩
      cases as with
      | cons a as => rw [eval_leaf_args hl] at hz; cases hz
      | nil =>
        rw [eval_var_node hv] at hz
        simpa [Env.bindAll, hf] using hz
    | none =>
      simp only [hf] at h
      unfold descend at h
      by_cases hl : hd.isLeaf = true
      · rw [if_pos (by exact hl)] at h
        cases h
        refine ⟨hg, fun _ z hz => ?_⟩
        by_cases hv : hd.isVar = true
        · cases as with
          | cons a as => rw [eval_leaf_args hl] at hz; cases hz
          | nil =>
            rw [eval_var_node hv] at hz ⊢
            simpa [Env.bindAll, hf] using hz
        · rw [← hz]; exact eval_leaf_const hl (by simpa using hv)
      · rw [if_neg (by exact hl)] at h
        exact mapChildren_ok (ρ' := ρ.bindAll σ) hK rfl (leaf_of_not_interp hp1 (by simpa using hl))
          (fun x hx y hy => substVars_ok hK hσ n x y (hp2 x hx) ((good_node.1 hg).2 x hx) hy) h

/-- Substituting plain expressions for variables in a plain expression gives a plain expression. -/
theorem substVars_plain {K : Ctors F} (hK : Closed (fun h _ => h.plain = true) K) {m : Nat} {σ : List (Expr F × Expr F)} (hσ : ∀ p ∈ σ, Plain p.2) :
    ∀ (n : Nat) (e r : Expr F), Plain e → substVars K m n σ e = .ok r → Plain r
  | 0, _, _, _, h => by cases h
  | n + 1, .node hd as, r, hp, h => by
    obtain ⟨hp1, hp2⟩ := plain_node.1 hp
    change substVarsBody K m σ (substVars K m n σ) (.node hd as) = .ok r at h
    unfold substVarsBody at h
    cases hf : findKey (.node hd as) σ with
    | some r' =>
      simp only [hf, Except.ok.injEq] at h
      subst h
      exact hσ _ (findKey_mem hf)
    | none =>
      simp only [hf] at h
      unfold descend at h
      by_cases hl : hd.isLeaf = true
      · rw [if_pos (by exact hl)] at h
        cases h
        exact hp
      · rw [if_neg (by exact hl)] at h
        exact over_mapChildren plain_basic hK (leaf_of_not_interp hp1 (by simpa using hl)) hp1
          (fun x hx y hy => substVars_plain hK hσ n x y (hp2 x hx) hy) h

/-- A single substitution of a variable is the substitution of that variable. -/
theorem substSingle_var {m n : Nat} {e t r : Expr F} (ht : t.head.isVar = true ∨ isVarOrElem t = true) :
    substSingle K lic m n e (t, r) = substVars K m n [(t, r)] e := by
  have hlit : isLiteral t = false := by
    obtain ⟨h, as⟩ := t
    cases h <;> first | rfl | (rcases ht with ht | ht <;> cases ht)
  unfold substSingle
  rw [if_neg (by simp [hlit])]
  induction n generalizing e with
  | zero => rfl
  | succ n ih =>
    have ih' : visitor (substBody K lic m (t, r).1 (t, r).2) n = substVars K m n [(t, r)] := funext fun e => ih
    change substBody K lic m t r (visitor (substBody K lic m t r) n) e = substVarsBody K m [(t, r)] (substVars K m n [(t, r)]) e
    have h1 : attemptPartial K lic m t r e = .ok e := by
      obtain ⟨h, as⟩ := t
      cases h <;> first | rfl | (rcases ht with ht | ht <;> cases ht)
    rw [show visitor (substBody K lic m t r) n = substVars K m n [(t, r)] from ih']
    unfold substBody substVarsBody
    rw [h1]
    simp only [findKey]
    split_ifs <;> rfl
end

/-! ## Expressions that do not mention what is bound -/

/-- The expression `t` does not occur in `e`. -/
def Avoids (t e : Expr F) : Prop := Over (fun h as => Expr.node h as ≠ t) e

/-- An interpreted node has the same value if its children have. -/
theorem eval_congr_interp {ρ ρ' : Env F} {h : Head F} {as : List (Expr F)} (hs : ρ'.symfn = ρ.symfn) (hi : h.interpreted = true)
    (ha : ∀ a ∈ as, eval ρ' a = eval ρ a) : eval ρ' (.node h as) = eval ρ (.node h as) := by
  rw [eval, eval, evals_eq, evals_eq, List.map_congr_left ha]
  generalize as.map (eval ρ) = vs
  cases h <;> first
    | (cases hi; done)
    | rfl
    | (rcases vs with _ | ⟨a, _ | ⟨b, _ | ⟨c, _ | ⟨d, vs⟩⟩⟩⟩ <;> rfl)
    | (show (seqO vs).bind _ = (seqO vs).bind _; rw [hs])

/-- The value of a plain expression depends on the values of the variables in it only. -/
theorem eval_congr {ρ ρ' : Env F} (hs : ρ'.symfn = ρ.symfn) :
    ∀ e : Expr F, Over (fun h as => h.plain = true ∧ (h.isVar = true → as = [] → ρ'.leaf h = ρ.leaf h)) e → eval ρ' e = eval ρ e
  | .node h as => by
    intro ho
    obtain ⟨⟨hp, hv⟩, hc⟩ := over_node.1 ho
    by_cases hl : h.isLeaf = true
    · by_cases hvar : h.isVar = true
      · cases as with
        | cons a as => rw [eval_leaf_args hl, eval_leaf_args hl]
        | nil => rw [eval_var_node hvar, eval_var_node hvar, hv hvar rfl]
      · exact eval_leaf_const hl (by simpa using hvar)
    · exact eval_congr_interp hs (leaf_of_not_interp hp (by simpa using hl)) (fun a ha => eval_congr hs a (hc a ha))

theorem over_bindAll {ρ : Env F} {σ : List (Expr F × Expr F)} : ∀ e : Expr F, Plain e → (∀ p ∈ σ, Avoids p.1 e) →
    Over (fun h as => h.plain = true ∧ (h.isVar = true → as = [] → (ρ.bindAll σ).leaf h = ρ.leaf h)) e
  | .node h as => by
    intro hp ha
    obtain ⟨hp1, hp2⟩ := plain_node.1 hp
    refine over_node.2 ⟨⟨hp1, fun hv has => ?_⟩, fun a hm => over_bindAll a (hp2 a hm) (fun p hpm => (over_node.1 (ha p hpm)).2 a hm)⟩
    subst has
    have : findKey (.node h []) σ = none := by
      cases hf : findKey (.node h []) σ with
      | none => rfl
      | some r => exact absurd rfl (over_node.1 (ha _ (findKey_mem hf))).1
    simp [Env.bindAll, this]

/-- An assignment agrees with its update on expressions that do not mention the targets. -/
theorem eval_bindAll {ρ : Env F} {σ : List (Expr F × Expr F)} {e : Expr F} (hp : Plain e) (ha : ∀ p ∈ σ, Avoids p.1 e) :
    eval (ρ.bindAll σ) e = eval ρ e :=
  eval_congr (ρ := ρ) (ρ' := ρ.bindAll σ) rfl e (over_bindAll e hp ha)

/-- The assignment in which an expression has the value of the result of substituting the pairs one after another. -/
noncomputable def Env.bindSeq (ρ : Env F) : List (Expr F × Expr F) → Env F
  | [] => ρ
  | p :: ps => (ρ.bindSeq ps).bindAll [p]

theorem bindSeq_symfn (ρ : Env F) (ps : List (Expr F × Expr F)) : (ρ.bindSeq ps).symfn = ρ.symfn := by
  induction ps with
  | nil => rfl
  | cons p ps ih => exact ih

theorem findKey_cons (k : Expr F) (p : Expr F × Expr F) (l : List (Expr F × Expr F)) :
    findKey k (p :: l) = if identical p.1 k then some p.2 else findKey k l := by
  obtain ⟨a, b⟩ := p
  rfl

/-- No replacement mentions the target of a later pair. -/
def NoChain : List (Expr F × Expr F) → Prop
  | [] => True
  | p :: ps => (∀ q ∈ ps, Avoids q.1 p.2) ∧ NoChain ps

/-- Without chains, one after another and all at once bind the variables to the same values. -/
theorem bindSeq_leaf (ρ : Env F) : ∀ (ps : List (Expr F × Expr F)), (∀ p ∈ ps, Plain p.2) → NoChain ps → (ρ.bindSeq ps).leaf = (ρ.bindAll ps).leaf
  | [], _, _ => rfl
  | p :: ps, hp, hn => by
    have ih := bindSeq_leaf ρ ps (fun q hq => hp q (List.mem_cons_of_mem _ hq)) hn.2
    have e1 : eval (ρ.bindSeq ps) p.2 = eval ρ p.2 := by
      rw [← eval_bindAll (ρ := ρ) (hp p List.mem_cons_self) hn.1]
      refine eval_congr (by rw [bindSeq_symfn]; rfl) p.2 ?_
      exact over_mono (fun h as hh => ⟨hh, fun _ _ => by rw [ih]⟩) (hp p List.mem_cons_self)
    funext h
    show (match findKey (.node h []) [p] with | some r => eval (ρ.bindSeq ps) r | none => (ρ.bindSeq ps).leaf h) =
      (match findKey (.node h []) (p :: ps) with | some r => eval ρ r | none => ρ.leaf h)
    rw [findKey_cons, findKey_cons]
    by_cases hi : identical p.1 (.node h []) = true
    · simp only [hi, if_true]; exact e1
    · simp only [hi, Bool.false_eq_true, if_false, findKey]
      rw [ih]; rfl

theorem var_or_opaque {t : Expr F} (h : t.head.isVar = true ∨ isVarOrElem t = true) : t.head.isVar = true ∨ t.head.plain = false := by
  obtain ⟨hd, as⟩ := t
  rcases h with h | h
  · exact .inl h
  · cases hd <;> first | exact .inl rfl | exact .inr rfl | cases h

/-- Pairs applied one after another bind the variables one after another. -/
theorem substSeq_ok {lic : Lic F} {ρ : Env F} {nK : Nat} {m n : Nat} : ∀ (ps : List (Expr F × Expr F)) (e r : Expr F),
    (∀ p ∈ ps, (p.1.head.isVar = true ∨ isVarOrElem p.1 = true) ∧ Good p.2 ∧ Plain p.2) → Plain e → Good e →
    (∀ qs, qs <:+ ps → lic.TrueAt (ρ.bindSeq qs)) → substSeq (ctors lic nK) lic m n e ps = .ok r →
    Good r ∧ ∀ z, eval (ρ.bindSeq ps) e = some z → eval ρ r = some z
  | [], e, r, _, _, hg, _, h => by
    cases h
    exact ⟨hg, fun z hz => hz⟩
  | p :: ps, e, r, hp, he, hg, hl, h => by
    obtain ⟨h1, h2, h3⟩ := hp p List.mem_cons_self
    obtain ⟨t, rp⟩ := p
    rw [substSeq, foldRes, substSingle_var h1] at h
    have hv : ∀ p ∈ [(t, rp)], (p.1.head.isVar = true ∨ p.1.head.plain = false) ∧ Good p.2 := by
      intro p hp
      rw [List.mem_singleton] at hp
      subst hp
      exact ⟨var_or_opaque h1, h2⟩
    cases hs : substVars (ctors lic nK) m n [(t, rp)] e with
    | error er => simp [hs] at h
    | ok s =>
      simp only [hs] at h
      obtain ⟨hgs, hvs⟩ := substVars_ok (ctors_sound lic (ρ.bindSeq ps) nK) hv n e s he hg hs
      have hps := substVars_plain (ctors_closed plain_basic lic nK) (by simpa using h3) n e s he hs
      obtain ⟨hgr, hvr⟩ := substSeq_ok ps s r (fun q hq => hp q (List.mem_cons_of_mem _ hq)) hps hgs
        (fun qs hq => hl qs (hq.trans (List.suffix_cons _ _))) h
      exact ⟨hgr, fun z hz => hvr z (hvs (hl ps (List.suffix_cons _ _)) z hz)⟩

/-- The pairs accepted for simultaneous substitution are all the pairs. -/
theorem unorderedPairs_eq {force : Bool} : ∀ {ps σ τ : List (Expr F × Expr F)}, unorderedPairs force σ ps = some τ →
    τ = σ ++ ps ∧ ∀ p ∈ ps, isVarOrElem p.1 = true
  | [], σ, τ, h => by cases h; simp
  | p :: ps, σ, τ, h => by
    unfold unorderedPairs at h
    by_cases hv : validUnordered force σ p = true
    · rw [if_pos hv] at h
      obtain ⟨h1, h2⟩ := unorderedPairs_eq h
      refine ⟨by rw [h1]; simp, fun q hq => ?_⟩
      rcases List.mem_cons.1 hq with rfl | hq
      · simp only [validUnordered, Bool.and_eq_true] at hv
        exact hv.1.1.1.2
      · exact h2 q hq
    · rw [if_neg hv] at h; cases h

theorem findKey_of_mem {k v : Expr F} : ∀ {l : List (Expr F × Expr F)}, (k, v) ∈ l → findKey k l ≠ none
  | (a, w) :: l, h => by
    rw [findKey]
    by_cases hi : identical a k = true
    · rw [if_pos hi]; simp
    · rw [if_neg hi]
      rcases List.mem_cons.1 h with e | h
      · cases e; exact absurd ((identical_iff _ _).2 rfl) hi
      · exact findKey_of_mem h

/-- Pairs that are substituted at once have different targets, and no replacement is an earlier target. -/
theorem unorderedPairs_split {force : Bool} : ∀ {ps σ τ : List (Expr F × Expr F)}, unorderedPairs force σ ps = some τ →
    ∀ as p bs, ps = as ++ p :: bs → findKey p.1 (σ ++ as) = none ∧ findKey p.2 (σ ++ as) = none
  | [], _, _, _, as, p, bs, e => by simp at e
  | q :: ps, σ, τ, h, as, p, bs, e => by
    unfold unorderedPairs at h
    by_cases hv : validUnordered force σ q = true
    · rw [if_pos hv] at h
      cases as with
      | nil =>
        rw [List.nil_append] at e
        cases e
        simp only [validUnordered, Bool.and_eq_true, Option.isNone_iff_eq_none] at hv
        rw [List.append_nil]
        exact ⟨hv.1.1.2, hv.2⟩
      | cons a as =>
        rw [List.cons_append] at e
        cases e
        have := unorderedPairs_split h as p bs rfl
        rwa [List.append_assoc, List.singleton_append] at this
    · rw [if_neg hv] at h; cases h

end Wf.Sym
