import Verif.Sym.CseLemmas
import Verif.Sym.ValueProps
import Std.Data.String.ToNat

/-! # Property C20: common sub-expression elimination -/

namespace Wf.Sym
open Complex

variable {F : Type} [DecidableEq F] [FnSem F]

/-- The scalars in the argument of `eliminate_subexpressions`: the entries of a matrix, or the scalar itself. -/
def entries : Expr F → List (Expr F)
  | .node (.matrix _ _) as => as
  | e => [e]

/-- The new variables: distinct variables none of which occurs in the expression. -/
structure Fresh (var : Nat → Expr F) (e : Expr F) : Prop where
  isVar : ∀ i, (var i).head.isVar = true ∧ (var i).args = []
  inj : Function.Injective var
  avoids : ∀ a ∈ entries e, ∀ i, Avoids (var i) a

/-- What the pass establishes for the entries, for any relation that it keeps. -/
theorem cse_entries {K : Ctors F} {m min : Nat} {var : Nat → Expr F} {e r : Expr F} {repl : List (Expr F × Expr F)} {P : Head F → List (Expr F) → Prop}
    {Q : Nat → Expr F → Expr F → Prop} (h : cse K m var min e = .ok (r, repl))
    (hS : ∀ counts, Sim ⟨K, m, counts, var, min⟩ repl P Q) (he : ∀ a ∈ entries e, Over P a)
    (hQ : ∀ n e r, Q n e r → Plain r) :
    List.Forall₂ (Q repl.length) (entries e) (entries r) ∧ ∀ i p, repl[i]? = some p → p.1 = var i ∧ ∃ e, Q i e p.2 := by
  obtain ⟨hd, as⟩ := e
  unfold cse at h
  simp only at h
  generalize (countNode (.node hd as) ⟨[], []⟩).counts = counts at h
  have hS := hS counts
  cases ht : cseTop ⟨K, m, counts, var, min⟩ hd as with
  | error er => simp [ht] at h
  | ok p =>
    obtain ⟨r', s'⟩ := p
    simp only [ht, Except.ok.injEq, Prod.mk.injEq] at h
    obtain ⟨rfl, rfl⟩ := h
    unfold cseTop at ht
    by_cases hm : ∃ a b, hd = .matrix a b
    · obtain ⟨a, b, rfl⟩ := hm
      unfold cseVisit at ht
      rw [if_neg (by simp [Head.isLeaf]), if_neg (by simp)] at ht
      cases hk : cseKids ⟨K, m, counts, var, min⟩ as ⟨[], []⟩ with
      | error er => simp [hk] at ht
      | ok p =>
        obtain ⟨bs, s1⟩ := p
        simp only [hk, rebuild, Except.ok.injEq] at ht
        have hw : cseReplace ⟨K, m, counts, var, min⟩ (.node (.matrix a b) as) (.node (.matrix a b) bs) s1 = (.node (.matrix a b) bs, s1) := by
          unfold cseReplace CseCfg.wants
          rw [if_neg (by simp [Expr.head, Head.isScalar])]
        rw [hw] at ht
        cases ht
        obtain ⟨h1, h2⟩ := (cseKids_step hS as _ _ bs he hk).2 List.prefix_rfl cseInv_nil
        exact ⟨h2, h1.repl⟩
    · have hen : ∀ as : List (Expr F), entries (.node hd as) = [.node hd as] := by
        intro as
        cases hd <;> first | rfl | exact absurd ⟨_, _, rfl⟩ hm
      rw [hen] at he ⊢
      obtain ⟨hp, ho⟩ := over_node.1 (he _ List.mem_cons_self)
      obtain ⟨h1, h2⟩ := (cseVisit_step hS hp ho (fun _ s r s' hx => cseCond_step hS as s s' r ho hx)
          (fun s bs s' hx => cseKids_step hS as s s' bs ho hx) ht).2 List.prefix_rfl cseInv_nil
      have hr : entries r' = [r'] := by
        obtain ⟨h3, as3⟩ := r'
        have h4 : h3.plain = true := (plain_node.1 (hQ _ _ _ h2)).1
        cases h3 <;> first | rfl | cases h4
      rw [hr]
      exact ⟨.cons h2 .nil, h1.repl⟩

theorem fresh_early {var : Nat → Expr F} {e a : Expr F} (hv : Fresh var e) (ha : a ∈ entries e) (hp : Plain a) : Over (EarlyNode var 0) a := by
  have key : ∀ a : Expr F, Plain a → (∀ i, Avoids (var i) a) → Over (EarlyNode var 0) a := by
    intro a
    exact go a
  exact key a hp (hv.avoids a ha)
where
  go : ∀ a : Expr F, Plain a → (∀ i, Avoids (var i) a) → Over (EarlyNode var 0) a
    | .node h as, hp, ha => over_node.2 ⟨⟨(plain_node.1 hp).1, fun j _ => (over_node.1 (ha j)).1⟩,
        fun b hb => go b ((plain_node.1 hp).2 b hb) (fun i => (over_node.1 (ha i)).2 b hb)⟩

/-- **C20** (definitions). The replacements define the new variables in order, and the definition of each mentions no new variable but earlier
ones. -/
theorem C20_definitions (lic : Lic F) (nK m min : Nat) (var : Nat → Expr F) (e r : Expr F) (repl : List (Expr F × Expr F)) (hv : Fresh var e)
    (he : ∀ a ∈ entries e, Plain a) (h : cse (ctors lic nK) m var min e = .ok (r, repl)) :
    ∀ i p, repl[i]? = some p → p.1 = var i ∧ Plain p.2 ∧ ∀ j, i ≤ j → Avoids (var j) p.2 := by
  intro i p hp
  obtain ⟨h1, e', h2⟩ := (cse_entries h (fun counts => cse_early _ _ hv.isVar hv.inj fun n => ctors_closed (early_basic hv.isVar n) lic nK)
    (fun a ha => fresh_early hv ha (he a ha)) (fun _ _ _ h => (early_avoids h (Nat.le_refl _)).1)).2 i p hp
  exact ⟨h1, (early_avoids h2 (Nat.le_refl _)).1, fun j hj => (early_avoids h2 hj).2⟩

/-- The two relations together. -/
theorem cse_both {lic : Lic F} {ρ ρ' : Env F} {nK m min : Nat} {var : Nat → Expr F} {e r : Expr F} {repl : List (Expr F × Expr F)} (hv : Fresh var e)
    (he : ∀ a ∈ entries e, Plain a ∧ Good a) (h : cse (ctors lic nK) m var min e = .ok (r, repl)) (hs : ρ'.symfn = ρ.symfn)
    (hvars : ∀ h, (∀ i, Expr.node h [] ≠ var i) → ρ'.leaf h = ρ.leaf h) (hdef : ∀ p ∈ repl, eval ρ' p.1 = eval ρ' p.2) :
    List.Forall₂ (fun a b => Carries lic ρ ρ' a b ∧ Plain b) (entries e) (entries r) ∧ ∀ p ∈ repl, Good p.2 := by
  have hS : ∀ counts, Sim ⟨ctors lic nK, m, counts, var, min⟩ repl (fun h as => CseNode ρ' ρ h as ∧ EarlyNode var 0 h as)
      (fun n e r => Carries lic ρ ρ' e r ∧ Over (EarlyNode var n) r) := fun counts =>
    (cse_sim _ repl (ctors_sound lic ρ' nK) hs hv.isVar hdef).and
      (cse_early _ _ hv.isVar hv.inj fun n => ctors_closed (early_basic hv.isVar n) lic nK)
  have hover : ∀ a ∈ entries e, Over (fun h as => CseNode ρ' ρ h as ∧ EarlyNode var 0 h as) a := by
    intro a ha
    have h3 := fresh_early hv ha (he a ha).1
    refine over_and ?_ h3
    refine over_mono ?_ (over_and h3 (good_over.1 (he a ha).2))
    rintro h as ⟨⟨hp, hn⟩, hg⟩
    refine ⟨hp, hg, fun _ has => ?_⟩
    subst has
    exact hvars h fun i => hn i (Nat.zero_le _)
  obtain ⟨h1, h2⟩ := cse_entries h hS hover (fun _ _ _ h => (early_avoids h.2 (Nat.le_refl _)).1)
  refine ⟨h1.imp fun a b hab => ⟨hab.1, (early_avoids hab.2 (Nat.le_refl _)).1⟩, fun p hp => ?_⟩
  obtain ⟨i, hi⟩ := List.getElem?_of_mem hp
  obtain ⟨_, e', h3⟩ := h2 i p hi
  exact h3.1.1

/-- **C20** (values). In every assignment that gives the new variables the values of their definitions, and agrees with `ρ` on the other
variables, each rewritten expression has the value that the original has under `ρ`. -/
theorem C20_values (ρ ρ' : Env F) (nK m min : Nat) (var : Nat → Expr F) (e r : Expr F) (repl : List (Expr F × Expr F)) (hv : Fresh var e)
    (he : ∀ a ∈ entries e, Plain a ∧ Good a) (h : LawfulRunOn (· = ρ') nK (fun _ K => cse K m var min e) (r, repl))
    (hs : ρ'.symfn = ρ.symfn) (hvars : ∀ h, (∀ i, Expr.node h [] ≠ var i) → ρ'.leaf h = ρ.leaf h) (hdef : ∀ p ∈ repl, eval ρ' p.1 = eval ρ' p.2) :
    List.Forall₂ (fun a b => ∀ z, eval ρ a = some z → eval ρ' b = some z) (entries e) (entries r) := by
  obtain ⟨lic, hl, hr⟩ := h.lawful
  exact (cse_both hv he hr hs hvars hdef).1.imp fun a b hab z hz => hab.1.2 (hl ρ' rfl) z hz

/-- **C20** (back substitution). Substituting the definitions back, last to first, into the rewritten expressions gives expressions with the
original values. -/
theorem C20_back_substitution (ρ : Env F) (nK m min n : Nat) (var : Nat → Expr F) (e r : Expr F) (repl : List (Expr F × Expr F)) (hv : Fresh var e)
    (he : ∀ a ∈ entries e, Plain a ∧ Good a) (back : List (Expr F))
    (h : LawfulRunOn (fun ρ' => ∃ l, l <+: repl ∧ ρ' = ρ.bindSeq l.reverse) nK
      (fun lic K => match cse K m var min e with
        | .error er => .error er
        | .ok (r, repl) => (mapRes (fun b => substSeq K lic m n b repl.reverse) (entries r)).map fun bs => (r, repl, bs))
      (r, repl, back)) :
    List.Forall₂ (fun a b => ∀ z, eval ρ a = some z → eval ρ b = some z) (entries e) back := by
  obtain ⟨lic, hl, hr⟩ := h.lawful
  cases hc : cse (ctors lic nK) m var min e with
  | error er => simp [hc] at hr
  | ok p =>
    obtain ⟨r', repl'⟩ := p
    simp only [hc] at hr
    cases hm : mapRes (fun b => substSeq (ctors lic nK) lic m n b repl'.reverse) (entries r') with
    | error er => simp [hm, Except.map] at hr
    | ok bs =>
      simp only [hm, Except.map, Except.ok.injEq, Prod.mk.injEq] at hr
      obtain ⟨rfl, rfl, rfl⟩ := hr
      have hdefs := C20_definitions lic nK m min var e r' repl' hv (fun a ha => (he a ha).1) hc
      have hlist : ∀ i p, repl'[i]? = some p → p.1 = var i ∧ Over (EarlyNode var i) p.2 := by
        intro i p hp
        obtain ⟨h1, e', h2⟩ := (cse_entries hc (fun counts => cse_early _ _ hv.isVar hv.inj fun n => ctors_closed (early_basic hv.isVar n) lic nK)
          (fun a ha => fresh_early hv ha (he a ha).1) (fun _ _ _ h => (early_avoids h (Nat.le_refl _)).1)).2 i p hp
        exact ⟨h1, h2⟩
      obtain ⟨hb1, hb2⟩ := bindSeq_defs hv.isVar hv.inj ρ repl' hlist
      obtain ⟨h1, h2⟩ := cse_both (ρ := ρ) (ρ' := ρ.bindSeq repl'.reverse) hv he hc (bindSeq_symfn ρ _) hb2 hb1
      have hpairs : ∀ p ∈ repl'.reverse, (p.1.head.isVar = true ∨ isVarOrElem p.1 = true) ∧ Good p.2 ∧ Plain p.2 := by
        intro p hp
        rw [List.mem_reverse] at hp
        obtain ⟨i, hi⟩ := List.getElem?_of_mem hp
        obtain ⟨h3, h4, _⟩ := hdefs i p hi
        exact ⟨.inl (by rw [h3]; exact (hv.isVar i).1), h2 p hp, h4⟩
      have hlt : ∀ qs, qs <:+ repl'.reverse → lic.TrueAt (ρ.bindSeq qs) := by
        intro qs hq
        refine hl _ ⟨qs.reverse, ?_, by rw [List.reverse_reverse]⟩
        rw [← List.reverse_suffix, List.reverse_reverse]; exact hq
      have hmr := mapRes_forall (P := fun b c => substSeq (ctors lic nK) lic m n b repl'.reverse = .ok c) hm fun b _ c hc => hc
      exact chain h1 hmr fun a b c hab hbc z hz =>
        (substSeq_ok repl'.reverse b c hpairs hab.2 hab.1.1 hlt hbc).2 z (hab.1.2 (hlt _ List.suffix_rfl) z hz)
where
  chain {R : Expr F → Expr F → Prop} {S : Expr F → Expr F → Prop} {T : Expr F → Expr F → Prop} : ∀ {xs ys zs : List (Expr F)},
      List.Forall₂ R xs ys → List.Forall₂ S ys zs → (∀ a b c, R a b → S b c → T a c) → List.Forall₂ T xs zs
    | [], [], _, .nil, .nil, _ => .nil
    | _ :: _, _ :: _, _, .cons h1 h2, .cons h3 h4, hT => .cons (hT _ _ _ h1 h3) (chain h2 h4 hT)

/-- The default variables are distinct; they are fresh if they do not occur in the expression. -/
theorem C20_default_names (e : Expr F) (h : ∀ a ∈ entries e, ∀ i, Avoids (defaultVar i) a) : Fresh defaultVar e := by
  refine ⟨fun i => ⟨rfl, rfl⟩, fun i j hij => ?_, h⟩
  have h1 : "v" ++ toString i = "v" ++ toString j := by
    unfold defaultVar at hij
    rw [Expr.node.injEq, Head.var.injEq] at hij
    exact hij.1.1
  have h2 : toString i = toString j := by
    rw [String.ext_iff, String.toList_append, String.toList_append] at h1
    exact String.ext_iff.2 (List.append_cancel_left h1)
  exact Nat.repr_injective h2

/-- The default variables may occur in the expression already, and are then confused with the variables that were there:
`x * y + cos(x * y) + v0` becomes `cos(v0) + 2 * v0` where `v0 = x * y`. With `x = y = 1` and `v0 = 0` the value was `1 + cos 1`; substituting back
gives `cos(x * y) + 2 * x * y` with the value `2 + cos 1`. -/
theorem C20_capture :
    let v0 : Expr ℝ := .var "v0" .unknown
    let ρ := valuesOf fun n => if n = "v0" then 0 else 1
    let e : Expr ℝ := .add [.mul [vx, vy], .fn .cos [.mul [vx, vy]], v0]
    let r : Expr ℝ := .add [.fn .cos [v0], .mul [v0, .int 2]]
    let back : Expr ℝ := .add [.fn .cos [.mul [vx, vy]], .mul [.int 2, vx, vy]]
    cse (ctors codeLic 8) 3 defaultVar 2 e = .ok (r, [(v0, .mul [vx, vy])]) ∧
    substSeq (ctors codeLic 8) codeLic 3 5 r [(v0, .mul [vx, vy])] = .ok back ∧
    eval ρ e = some (1 + Complex.cos 1) ∧ eval ρ back = some (Complex.cos 1 + 2) := by
  refine ⟨by decide +kernel, by decide +kernel, ?_, ?_⟩
  · simp only [eval_add, eval_mul, eval_fn1, fn1, List.map_cons, List.map_nil, eval_var]
    simp [sumO, prodO, fnVal]
  · simp only [eval_add, eval_mul, eval_fn1, fn1, List.map_cons, List.map_nil, eval_var, eval_int]
    simp [sumO, prodO, fnVal]

/-! ## Non-vacuity -/

/-- `[cos(x * y) + z, cos(x * y) ** (x * y)]`: two nested definitions. -/
example : LawfulRunOn (fun _ => True) 8
    (fun lic K => match cse K 3 defaultVar 2 (.node (.matrix 1 2) [.add [.fn .cos [.mul [vx, vy]], vz], .pow (.fn .cos [.mul [vx, vy]]) (.mul [vx, vy])]) with
        | .error er => .error er
        | .ok (r, repl) => (mapRes (fun b => substSeq K lic 3 8 b repl.reverse) (entries r)).map fun bs => (r, repl, bs))
    ((.node (.matrix 1 2) [.add [.var "v1" .unknown, vz], .pow (.var "v1" .unknown) (.var "v0" .unknown)] : Expr ℝ),
      [(.var "v0" .unknown, .mul [vx, vy]), (.var "v1" .unknown, .fn .cos [.var "v0" .unknown])],
      [.add [.fn .cos [.mul [vx, vy]], vz], .pow (.fn .cos [.mul [vx, vy]]) (.mul [vx, vy])]) :=
  ⟨by decide +kernel, noLic, fun _ _ => noLic_true _, by decide +kernel⟩

/-- The default names are fresh for an expression in `x` and `y`. -/
example : Fresh defaultVar (.add [.mul [vx, vy], .fn .cos [.mul [vx, vy]]]) := by
  refine C20_default_names _ fun a ha i => ?_
  rw [show ∀ as : List (Expr ℝ), entries (.add as) = [.add as] from fun _ => rfl, List.mem_singleton] at ha
  subst ha
  have hx : ∀ n, n.toList.head? ≠ some 'v' → ∀ s, (Expr.var n s : Expr ℝ) ≠ defaultVar i := by
    intro n hn s he
    unfold defaultVar at he
    rw [Expr.node.injEq, Head.var.injEq] at he
    apply hn
    rw [he.1.1, String.toList_append]
    rfl
    all_goals simp
  have ox : Avoids (defaultVar i) vx := over_node.2 ⟨hx "x" (by decide) _, by simp⟩
  have oy : Avoids (defaultVar i) vy := over_node.2 ⟨hx "y" (by decide) _, by simp⟩
  have om : Avoids (defaultVar i) (.mul [vx, vy]) := over_node.2 ⟨by simp [defaultVar], by rw [List.forall_mem_cons, List.forall_mem_singleton]; exact ⟨ox, oy⟩⟩
  refine over_node.2 ⟨by simp [defaultVar], ?_⟩
  rw [List.forall_mem_cons, List.forall_mem_singleton]
  exact ⟨om, over_node.2 ⟨by simp [defaultVar], by rw [List.forall_mem_singleton]; exact om⟩⟩

end Wf.Sym
