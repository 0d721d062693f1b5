import Verif.Sym.CseModel
import Verif.Sym.SubstituteLemmas

/-! # Common sub-expression elimination keeps the value -/

namespace Wf.Sym
open Complex

variable {F : Type} [DecidableEq F] [FnSem F]

/-! ## A relation between visited expressions and results is kept by the pass -/

/-- `Q n e r`: with `n` replacements made, `r` stands for `e`. `fin` is the final list of replacements, `P` holds of the nodes visited. -/
structure Sim (C : CseCfg F) (fin : List (Expr F × Expr F)) (P : Head F → List (Expr F) → Prop) (Q : Nat → Expr F → Expr F → Prop) : Prop where
  plain : ∀ h as, P h as → h.plain = true
  mono : ∀ n n' e r, n ≤ n' → Q n e r → Q n' e r
  leaf : ∀ n h as, h.isLeaf = true → P h as → (∀ a ∈ as, Over P a) → Q n (.node h as) (.node h as)
  rebuild : ∀ n h as bs r, h.interpreted = true → P h as → List.Forall₂ (Q n) as bs → rebuild C.K C.m h bs = .ok r → Q n (.node h as) r
  condT : ∀ n c a b r, Q n c (.bconst true) → Q n a r → Q n (.cond c a b) r
  condF : ∀ n c a b r, Q n c (.bconst false) → Q n b r → Q n (.cond c a b) r
  cond : ∀ n c a b c' a' b', Q n c c' → Q n a a' → Q n b b' → Q n (.cond c a b) (condCreate c' a' b')
  replace : ∀ n e d, Q n e d → fin[n]? = some (C.var n, d) → Q (n + 1) e (C.var n)

/-- Everything in the cache is related; the replacements are the variables, in order, with definitions that stand for some expression. -/
structure CseInv (C : CseCfg F) (Q : Nat → Expr F → Expr F → Prop) (s : CseSt F) : Prop where
  cache : ∀ p ∈ s.cache, Q s.repl.length p.1 p.2
  repl : ∀ i p, s.repl[i]? = some p → p.1 = C.var i ∧ ∃ e, Q i e p.2

/-- Replacements are only added, and the invariant is kept; `X` holds at the end. -/
def CseStep (C : CseCfg F) (fin : List (Expr F × Expr F)) (Q : Nat → Expr F → Expr F → Prop) (s s' : CseSt F) (X : Nat → Prop) : Prop :=
  s.repl <+: s'.repl ∧ (s'.repl <+: fin → CseInv C Q s → CseInv C Q s' ∧ X s'.repl.length)

section
variable {C : CseCfg F} {fin : List (Expr F × Expr F)} {P : Head F → List (Expr F) → Prop} {Q : Nat → Expr F → Expr F → Prop}

theorem CseStep.then {s s1 s2 : CseSt F} {X Y Z : Nat → Prop} (h1 : CseStep C fin Q s s1 X) (h2 : CseStep C fin Q s1 s2 Y)
    (hZ : ∀ n n', n ≤ n' → X n → Y n' → Z n') : CseStep C fin Q s s2 Z := by
  refine ⟨h1.1.trans h2.1, fun hf hi => ?_⟩
  obtain ⟨h3, h4⟩ := h1.2 (h2.1.trans hf) hi
  obtain ⟨h5, h6⟩ := h2.2 hf h3
  exact ⟨h5, hZ _ _ h2.1.length_le h4 h6⟩

theorem CseStep.mono {s s1 : CseSt F} {X Z : Nat → Prop} (h1 : CseStep C fin Q s s1 X) (hZ : ∀ n, X n → Z n) : CseStep C fin Q s s1 Z :=
  ⟨h1.1, fun hf hi => ⟨(h1.2 hf hi).1, hZ _ (h1.2 hf hi).2⟩⟩

theorem CseStep.refl {s : CseSt F} {X : Nat → Prop} (h : ∀ n, X n) : CseStep C fin Q s s X :=
  ⟨List.prefix_rfl, fun _ hi => ⟨hi, h _⟩⟩

theorem cseReplace_step (hS : Sim C fin P Q) {e mapped r : Expr F} {s s1 s' : CseSt F} (h1 : CseStep C fin Q s s1 (fun n => Q n e mapped))
    (h : cseReplace C e mapped s1 = (r, s')) : CseStep C fin Q s s' (fun n => Q n e r) := by
  unfold cseReplace at h
  split_ifs at h with hw
  · cases h
    refine ⟨h1.1.trans (List.prefix_append _ _), fun hf hi => ?_⟩
    have hf1 : s1.repl <+: fin := (List.prefix_append _ _).trans hf
    obtain ⟨h2, h3⟩ := h1.2 hf1 hi
    have hfin : fin[s1.repl.length]? = some (C.var s1.repl.length, mapped) := by
      obtain ⟨t, rfl⟩ := hf
      simp
    refine ⟨⟨fun p hp => hS.mono _ _ _ _ (by simp) (h2.cache p hp), fun i p hp => ?_⟩, ?_⟩
    · simp only at hp
      rcases Nat.lt_or_ge i s1.repl.length with hlt | hge
      · rw [List.getElem?_append_left hlt] at hp
        exact h2.repl i p hp
      · rw [List.getElem?_append_right hge] at hp
        have : i = s1.repl.length := by
          by_contra hne
          rw [List.getElem?_eq_none (by simp; omega)] at hp
          cases hp
        subst this
        simp at hp
        subst hp
        exact ⟨rfl, e, h3⟩
    · simp only [List.length_append, List.length_cons, List.length_nil]
      exact hS.replace _ _ _ h3 hfin
  · cases h; exact h1

theorem cseVisit_step (hS : Sim C fin P Q) {h : Head F} {as : List (Expr F)} {cond kids} {s s' : CseSt F} {r : Expr F} (hp : P h as) (ho : ∀ a ∈ as, Over P a)
    (hc : h = .cond → ∀ s r s', cond s = .ok (r, s') → CseStep C fin Q s s' (fun n => Q n (.node .cond as) r))
    (hk : ∀ s bs s', kids s = .ok (bs, s') → CseStep C fin Q s s' (fun n => List.Forall₂ (Q n) as bs))
    (hr : cseVisit C h as cond kids s = .ok (r, s')) : CseStep C fin Q s s' (fun n => Q n (.node h as) r) := by
  unfold cseVisit at hr
  by_cases hl : h.isLeaf = true
  · rw [if_pos hl] at hr
    cases hr
    exact CseStep.refl fun n => hS.leaf n h as hl hp ho
  · rw [if_neg hl] at hr
    by_cases hcd : h = .cond
    · rw [if_pos hcd] at hr
      cases hx : cond s with
      | error e => simp [hx] at hr
      | ok p =>
        obtain ⟨m1, s1⟩ := p
        simp only [hx, Except.ok.injEq] at hr
        subst hcd
        exact cseReplace_step hS (hc rfl s m1 s1 hx) hr
    · rw [if_neg hcd] at hr
      cases hx : kids s with
      | error e => simp [hx] at hr
      | ok p =>
        obtain ⟨bs, s1⟩ := p
        simp only [hx] at hr
        cases hb : rebuild C.K C.m h bs with
        | error e => simp [hb] at hr
        | ok m1 =>
          simp only [hb, Except.ok.injEq] at hr
          refine cseReplace_step hS ((hk s bs s1 hx).mono fun n hn => ?_) hr
          exact hS.rebuild n h as bs m1 (leaf_of_not_interp (hS.plain _ _ hp) (by simpa using hl)) hp hn hb

mutual
theorem cseE_step (hS : Sim C fin P Q) : ∀ (e : Expr F) (s s' : CseSt F) (r : Expr F), Over P e → cseE C e s = .ok (r, s') →
    CseStep C fin Q s s' (fun n => Q n e r)
  | .node h as, s, s', r, ho, hr => by
    obtain ⟨hp, ho⟩ := over_node.1 ho
    rw [cseE] at hr
    cases hf : findKey (.node h as) s.cache with
    | some r' =>
      simp only [hf, Except.ok.injEq, Prod.mk.injEq] at hr
      obtain ⟨rfl, rfl⟩ := hr
      exact ⟨List.prefix_rfl, fun _ hi => ⟨hi, hi.cache _ (findKey_mem hf)⟩⟩
    | none =>
      simp only [hf] at hr
      cases hv : cseVisit C h as (cseCond C as) (cseKids C as) s with
      | error e => simp [hv] at hr
      | ok p =>
        obtain ⟨r1, s1⟩ := p
        simp only [hv, Except.ok.injEq, Prod.mk.injEq] at hr
        obtain ⟨rfl, rfl⟩ := hr
        obtain ⟨h1, h2⟩ := cseVisit_step hS hp ho (fun _ s r s' hx => cseCond_step hS as s s' r ho hx)
          (fun s bs s' hx => cseKids_step hS as s s' bs ho hx) hv
        refine ⟨h1, fun hfin hi => ?_⟩
        obtain ⟨h3, h4⟩ := h2 hfin hi
        refine ⟨⟨fun p hpm => ?_, h3.repl⟩, h4⟩
        rcases List.mem_cons.1 hpm with rfl | hpm
        · exact h4
        · exact h3.cache p hpm
theorem cseCond_step (hS : Sim C fin P Q) : ∀ (as : List (Expr F)) (s s' : CseSt F) (r : Expr F), (∀ a ∈ as, Over P a) → cseCond C as s = .ok (r, s') →
    CseStep C fin Q s s' (fun n => Q n (.node .cond as) r)
  | [], s, s', r, ho, hr => by simp [cseCond] at hr
  | [_], s, s', r, ho, hr => by simp [cseCond] at hr
  | [_, _], s, s', r, ho, hr => by simp [cseCond] at hr
  | _ :: _ :: _ :: _ :: _, s, s', r, ho, hr => by simp [cseCond] at hr
  | [c, a, b], s, s', r, ho, hr => by
    rw [cseCond] at hr
    cases hc : cseE C c s with
    | error e => simp [hc] at hr
    | ok p =>
      obtain ⟨c', s1⟩ := p
      simp only [hc] at hr
      have h1 := cseE_step hS c s s1 c' (ho c (by simp)) hc
      by_cases ht : identical c' (.bconst true) = true
      · rw [if_pos ht] at hr
        have h2 := cseE_step hS a s1 s' r (ho a (by simp)) hr
        rw [eq_of_identical ht] at h1
        exact h1.then h2 fun n n' hn hx hy => hS.condT _ _ _ _ _ (hS.mono _ _ _ _ hn hx) hy
      · rw [if_neg ht] at hr
        by_cases hf : identical c' (.bconst false) = true
        · rw [if_pos hf] at hr
          have h2 := cseE_step hS b s1 s' r (ho b (by simp)) hr
          rw [eq_of_identical hf] at h1
          exact h1.then h2 fun n n' hn hx hy => hS.condF _ _ _ _ _ (hS.mono _ _ _ _ hn hx) hy
        · rw [if_neg hf] at hr
          cases ha : cseE C a s1 with
          | error e => simp [ha] at hr
          | ok p =>
            obtain ⟨a', s2⟩ := p
            simp only [ha] at hr
            cases hb : cseE C b s2 with
            | error e => simp [hb] at hr
            | ok p =>
              obtain ⟨b', s3⟩ := p
              simp only [hb, Except.ok.injEq, Prod.mk.injEq] at hr
              obtain ⟨rfl, rfl⟩ := hr
              have h2 := cseE_step hS a s1 s2 a' (ho a (by simp)) ha
              have h3 := cseE_step hS b s2 s3 b' (ho b (by simp)) hb
              exact (h1.then h2 (Z := fun n => Q n c c' ∧ Q n a a') fun n n' hn hx hy => ⟨hS.mono _ _ _ _ hn hx, hy⟩).then h3
                fun n n' hn hx hy => hS.cond _ _ _ _ _ _ _ (hS.mono _ _ _ _ hn hx.1) (hS.mono _ _ _ _ hn hx.2) hy
theorem cseKids_step (hS : Sim C fin P Q) : ∀ (as : List (Expr F)) (s s' : CseSt F) (bs : List (Expr F)), (∀ a ∈ as, Over P a) → cseKids C as s = .ok (bs, s') →
    CseStep C fin Q s s' (fun n => List.Forall₂ (Q n) as bs)
  | [], s, s', bs, ho, hr => by
    rw [cseKids] at hr
    cases hr
    exact CseStep.refl fun n => .nil
  | a :: as, s, s', bs, ho, hr => by
    rw [cseKids] at hr
    cases ha : cseE C a s with
    | error e => simp [ha] at hr
    | ok p =>
      obtain ⟨b, s1⟩ := p
      simp only [ha] at hr
      cases hb : cseKids C as s1 with
      | error e => simp [hb] at hr
      | ok p =>
        obtain ⟨bs', s2⟩ := p
        simp only [hb, Except.ok.injEq, Prod.mk.injEq] at hr
        obtain ⟨rfl, rfl⟩ := hr
        have h1 := cseE_step hS a s s1 b (ho a (by simp)) ha
        have h2 := cseKids_step hS as s1 s2 bs' (fun x hx => ho x (by simp [hx])) hb
        exact h1.then h2 fun n n' hn hx hy => .cons (hS.mono _ _ _ _ hn hx) hy
end

theorem Sim.and {P' : Head F → List (Expr F) → Prop} {Q' : Nat → Expr F → Expr F → Prop} (h : Sim C fin P Q) (h' : Sim C fin P' Q') :
    Sim C fin (fun h as => P h as ∧ P' h as) (fun n e r => Q n e r ∧ Q' n e r) where
  plain _ _ hp := h.plain _ _ hp.1
  mono n n' e r hn hq := ⟨h.mono _ _ _ _ hn hq.1, h'.mono _ _ _ _ hn hq.2⟩
  leaf n hd as hl hp ho := ⟨h.leaf _ _ _ hl hp.1 fun a ha => over_mono (fun _ _ x => x.1) (ho a ha),
    h'.leaf _ _ _ hl hp.2 fun a ha => over_mono (fun _ _ x => x.2) (ho a ha)⟩
  rebuild n hd as bs r hi hp hab hr := ⟨h.rebuild _ _ _ _ _ hi hp.1 (hab.imp fun _ _ x => x.1) hr,
    h'.rebuild _ _ _ _ _ hi hp.2 (hab.imp fun _ _ x => x.2) hr⟩
  condT n c a b r h1 h2 := ⟨h.condT _ _ _ _ _ h1.1 h2.1, h'.condT _ _ _ _ _ h1.2 h2.2⟩
  condF n c a b r h1 h2 := ⟨h.condF _ _ _ _ _ h1.1 h2.1, h'.condF _ _ _ _ _ h1.2 h2.2⟩
  cond n c a b c' a' b' h1 h2 h3 := ⟨h.cond _ _ _ _ _ _ _ h1.1 h2.1 h3.1, h'.cond _ _ _ _ _ _ _ h1.2 h2.2 h3.2⟩
  replace n e d h1 h2 := ⟨h.replace _ _ _ h1.1 h2, h'.replace _ _ _ h1.2 h2⟩

theorem cseInv_nil : CseInv C Q (⟨[], []⟩ : CseSt F) := ⟨by simp, by simp⟩
end

/-! ## The values -/

theorem good_over : ∀ {e : Expr F}, Good e ↔ Over GoodNode e
  | .node h as => by
    rw [good_node, over_node]
    constructor
    · rintro ⟨h1, h2⟩; exact ⟨h1, fun a ha => good_over.1 (h2 a ha)⟩
    · rintro ⟨h1, h2⟩; exact ⟨h1, fun a ha => good_over.2 (h2 a ha)⟩

theorem over_and {P P' : Head F → List (Expr F) → Prop} : ∀ {e : Expr F}, Over P e → Over P' e → Over (fun h as => P h as ∧ P' h as) e
  | .node h as => fun h1 h2 => over_node.2 ⟨⟨(over_node.1 h1).1, (over_node.1 h2).1⟩, fun a ha => over_and ((over_node.1 h1).2 a ha) ((over_node.1 h2).2 a ha)⟩

section
variable {lic : Lic F} {ρ ρ' : Env F}

theorem cond_carry_true {c a b r : Expr F} (h1 : Carries lic ρ' ρ c (.bconst true)) (h2 : Carries lic ρ' ρ a r) : Carries lic ρ' ρ (.cond c a b) r := by
  refine ⟨h2.1, fun hl z hz => h2.2 hl z ?_⟩
  rw [eval_cond] at hz
  cases hv : eval ρ' c with
  | none => simp [hv, condO] at hz
  | some w =>
    have h3 := h1.2 hl w hv
    rw [eval_bconst] at h3
    simp only [if_true, Option.some.injEq] at h3
    simpa [hv, condO, ← h3] using hz

theorem cond_carry_false {c a b r : Expr F} (h1 : Carries lic ρ' ρ c (.bconst false)) (h2 : Carries lic ρ' ρ b r) : Carries lic ρ' ρ (.cond c a b) r := by
  refine ⟨h2.1, fun hl z hz => h2.2 hl z ?_⟩
  rw [eval_cond] at hz
  cases hv : eval ρ' c with
  | none => simp [hv, condO] at hz
  | some w =>
    have h3 := h1.2 hl w hv
    rw [eval_bconst] at h3
    simp only [Bool.false_eq_true, if_false, Option.some.injEq] at h3
    simpa [hv, condO, ← h3] using hz

theorem cond_carry {c a b c' a' b' : Expr F} (h1 : Carries lic ρ' ρ c c') (h2 : Carries lic ρ' ρ a a') (h3 : Carries lic ρ' ρ b b') :
    Carries lic ρ' ρ (.cond c a b) (condCreate c' a' b') := by
  refine ⟨condCreate_good h1.1 h2.1 h3.1, fun hl z hz => condCreate_ok ρ _ _ _ z ?_⟩
  rw [eval_cond] at hz
  exact condO_carry (h1.2 hl) (h2.2 hl) (h3.2 hl) z hz

theorem good_varNode {t : Expr F} (ht : t.head.isVar = true) (ha : t.args = []) : Good t := by
  obtain ⟨h, as⟩ := t
  cases ha
  refine good_node.2 ⟨?_, by simp⟩
  cases h <;> first | trivial | cases ht

/-- The nodes visited: plain, well formed, and with the same value for the variables in both assignments. -/
def CseNode (ρ' ρ : Env F) (h : Head F) (as : List (Expr F)) : Prop :=
  h.plain = true ∧ GoodNode h as ∧ (h.isVar = true → as = [] → ρ'.leaf h = ρ.leaf h)

/-- In an assignment that gives the new variables the values of their definitions, results have the value of the expressions they stand for. -/
theorem cse_sim (C : CseCfg F) (fin : List (Expr F × Expr F)) (hK : Sound lic ρ' C.K) (hs : ρ'.symfn = ρ.symfn)
    (hvar : ∀ i, (C.var i).head.isVar = true ∧ (C.var i).args = []) (hfin : ∀ p ∈ fin, eval ρ' p.1 = eval ρ' p.2) :
    Sim C fin (CseNode ρ' ρ) (fun _ e r => Carries lic ρ ρ' e r) where
  plain _ _ h := h.1
  mono _ _ _ _ _ h := h
  leaf n h as hl hp ho := by
    have hg : Good (.node h as) := good_node.2 ⟨hp.2.1, fun a ha => good_over.2 (over_mono (fun _ _ h => h.2.1) (ho a ha))⟩
    have he : eval ρ' (.node h as) = eval ρ (.node h as) :=
      eval_congr hs _ (over_mono (fun _ _ h => ⟨h.1, h.2.2⟩) (over_node.2 ⟨hp, ho⟩))
    exact ⟨hg, fun _ z hz => by rw [he]; exact hz⟩
  rebuild n h as bs r hi _ hab hr := rebuild_ok hK hs.symm hi hab hr
  condT n c a b r h1 h2 := cond_carry_true h1 h2
  condF n c a b r h1 h2 := cond_carry_false h1 h2
  cond n c a b c' a' b' h1 h2 h3 := cond_carry h1 h2 h3
  replace n e d h1 h2 := by
    refine ⟨good_varNode (hvar n).1 (hvar n).2, fun hl z hz => ?_⟩
    rw [hfin _ (List.mem_of_getElem? h2)]
    exact h1.2 hl z hz
end

/-! ## The definitions refer to earlier variables only -/

/-- A plain node that is not one of the new variables from the `n`-th on. -/
def EarlyNode (var : Nat → Expr F) (n : Nat) (h : Head F) (as : List (Expr F)) : Prop := h.plain = true ∧ ∀ j, n ≤ j → Expr.node h as ≠ var j

theorem early_basic {var : Nat → Expr F} (hvar : ∀ i, (var i).head.isVar = true ∧ (var i).args = []) (n : Nat) : Basic (EarlyNode var n) := by
  have key : ∀ (h : Head F) (as : List (Expr F)), h.plain = true → h.isVar = false → EarlyNode var n h as := by
    intro h as hp hv
    refine ⟨hp, fun j _ he => ?_⟩
    have := (hvar j).1
    rw [← he, show (Expr.node h as).head = h from rfl, hv] at this
    cases this
  constructor <;> intros <;> exact key _ _ rfl rfl

theorem cse_early (C : CseCfg F) (fin : List (Expr F × Expr F)) (hvar : ∀ i, (C.var i).head.isVar = true ∧ (C.var i).args = [])
    (hinj : Function.Injective C.var) (hK : ∀ n, Closed (EarlyNode C.var n) C.K) :
    Sim C fin (EarlyNode C.var 0) (fun n _ r => Over (EarlyNode C.var n) r) where
  plain _ _ h := h.1
  mono n n' e r hn h := over_mono (fun _ _ h => ⟨h.1, fun j hj => h.2 j (by omega)⟩) h
  leaf n h as hl hp ho := over_mono (fun _ _ h => ⟨h.1, fun j hj => h.2 j (by omega)⟩) (over_node.2 ⟨hp, ho⟩)
  rebuild n h as bs r hi hp hab hr := by
    have hb : ∀ b ∈ bs, Over (EarlyNode C.var n) b := by
      clear hr hp
      induction hab with
      | nil => simp
      | cons h1 _ ih => simpa using ⟨h1, ih⟩
    refine over_rebuild (early_basic hvar n) (hK n) hi ⟨hp.1, fun j _ => hp.2 j (Nat.zero_le _)⟩ hb hr
  condT n c a b r _ h2 := h2
  condF n c a b r _ h2 := h2
  cond n c a b c' a' b' h1 h2 h3 := over_condCreate (early_basic hvar n) h1 h2 h3
  replace n e d _ _ := by
    obtain ⟨h1, h2⟩ := hvar n
    cases hC : C.var n with
    | node h as =>
    rw [hC] at h1 h2
    have has : as = [] := h2
    subst has
    have hv : h.isVar = true := h1
    refine over_node.2 ⟨⟨?_, fun j hj he => ?_⟩, by simp⟩
    · cases h <;> first | rfl | cases hv
    · rw [← hC] at he
      have := hinj he
      omega

theorem early_avoids {var : Nat → Expr F} {i j : Nat} {e : Expr F} (h : Over (EarlyNode var i) e) (hij : i ≤ j) : Plain e ∧ Avoids (var j) e :=
  ⟨over_mono (fun _ _ h => h.1) h, over_mono (fun _ _ h => h.2 j hij) h⟩

/-- Binding the variables to their definitions, first to last, gives each the value of its definition and leaves the other variables alone. -/
theorem bindSeq_defs {var : Nat → Expr F} (hvar : ∀ i, (var i).head.isVar = true ∧ (var i).args = []) (hinj : Function.Injective var) (ρ : Env F)
    (l : List (Expr F × Expr F)) (hl : ∀ i p, l[i]? = some p → p.1 = var i ∧ Over (EarlyNode var i) p.2) :
    (∀ p ∈ l, eval (ρ.bindSeq l.reverse) p.1 = eval (ρ.bindSeq l.reverse) p.2) ∧
      ∀ h, (∀ j, Expr.node h [] ≠ var j) → (ρ.bindSeq l.reverse).leaf h = ρ.leaf h := by
  induction l using List.reverseRecOn with
  | nil => exact ⟨by simp, fun _ _ => rfl⟩
  | append_singleton l p ih =>
    have hp := hl l.length p (by simp)
    have hl' : ∀ i q, l[i]? = some q → q.1 = var i ∧ Over (EarlyNode var i) q.2 := by
      intro i q hq
      have hi : i < l.length := by
        by_contra hn
        rw [List.getElem?_eq_none (by omega)] at hq
        cases hq
      exact hl i q (by rw [List.getElem?_append_left hi]; exact hq)
    obtain ⟨ih1, ih2⟩ := ih hl'
    have hrev : ρ.bindSeq (l ++ [p]).reverse = (ρ.bindSeq l.reverse).bindAll [p] := by rw [List.reverse_append]; rfl
    rw [hrev]
    have same : ∀ e : Expr F, Plain e → Avoids (var l.length) e → eval ((ρ.bindSeq l.reverse).bindAll [p]) e = eval (ρ.bindSeq l.reverse) e := by
      intro e h1 h2
      refine eval_bindAll h1 ?_
      intro q hq
      rw [List.mem_singleton] at hq
      rw [hq, hp.1]; exact h2
    have vnode : ∀ i, ∃ h, var i = .node h [] ∧ h.isVar = true := by
      intro i
      obtain ⟨h1, h2⟩ := hvar i
      cases hv : var i with
      | node h as =>
        rw [hv] at h1 h2
        have has : as = [] := h2
        exact ⟨h, by rw [has], h1⟩
    have vplain : ∀ {h : Head F}, h.isVar = true → h.plain = true := by
      intro h hv
      cases h <;> first | rfl | cases hv
    refine ⟨fun q hq => ?_, fun h hh => ?_⟩
    · rcases List.mem_append.1 hq with hq | hq
      · obtain ⟨i, hi⟩ := List.getElem?_of_mem hq
        have hlt : i < l.length := by
          by_contra hn
          rw [List.getElem?_eq_none (by omega)] at hi
          cases hi
        obtain ⟨h1, h2⟩ := hl' i q hi
        obtain ⟨hd, hve, hv⟩ := vnode i
        obtain ⟨h3, h4⟩ := early_avoids h2 (Nat.le_of_lt hlt)
        rw [same q.2 h3 h4, h1, same (var i), ← h1, ih1 q hq]
        · rw [hve]; exact plain_node.2 ⟨vplain hv, by simp⟩
        · rw [hve]
          refine over_node.2 ⟨fun he => ?_, by simp⟩
          rw [← hve] at he
          have := hinj he
          omega
      · rw [List.mem_singleton] at hq
        subst hq
        obtain ⟨h3, h4⟩ := early_avoids hp.2 (Nat.le_refl _)
        rw [same q.2 h3 h4]
        obtain ⟨hd, hve, hv⟩ := vnode l.length
        rw [hp.1, hve, eval_var_node hv]
        have hfind : findKey (.node hd []) [q] = some q.2 := by
          rw [findKey_cons, hp.1, hve, if_pos ((identical_iff _ _).2 rfl)]
        simp [Env.bindAll, hfind]
    · have hfind : findKey (.node h []) [p] = none := by
        rw [findKey_cons, hp.1, if_neg]
        · rfl
        · intro hi
          exact hh l.length ((identical_iff _ _).1 hi).symm
      rw [← ih2 h hh]
      simp [Env.bindAll, hfind]

end Wf.Sym
