import Verif.Sym.ExponentFns
import Verif.Sym.LowerSpec

/-!
# Lowering that asks no sign question

The lowering of expressions whose powers have integer exponents, or have sums, variables and constants as bases, does not depend on the answers to the
sign questions.
-/

namespace Wf.Sym
open Wf.Gen (Prim)

variable {F : Type} [DecidableEq F] [FnSem F] {K K' : Ctors F}

/-- Bases with which other exponents are allowed here. -/
abbrev PB : Expr F → Prop := fun b => plainBase b = true

local notation "O" => Over (ExpNode (PB (F := F)))

/-- The second call gives the result of the first. -/
def Gives {α : Type} (x x' : Res α) : Prop := ∀ r, x = .ok r → x' = .ok r

theorem gives_refl {α : Type} (x : Res α) : Gives x x := fun _ h => h

theorem gives_andThen {α β : Type} {x x' : Res α} {f f' : α → Res β} (hx : Gives x x') (hf : ∀ a, x = .ok a → Gives (f a) (f' a)) :
    Gives (andThen x f) (andThen x' f') := by
  intro r h
  obtain ⟨a, ha, hr⟩ := andThen_ok h
  unfold andThen
  rw [hx a ha]
  exact hf a ha r hr

theorem gives_tr {B : Expr F → Prop} {x x' : Res (Expr F)} (h : Tr B x x') : Gives x x' := fun r hr => (h r hr).1

/-- The same for lowering. -/
def GivesL (R R' : Lowering F) : Prop := ∀ s e, O e → Gives (R s e) (R' s e)

variable {R R' : Lowering F}

theorem gives_lowerList (hR : GivesL R R') : ∀ (es : List (Expr F)) (s : Low F), (∀ e ∈ es, O e) → Gives (lowerList R s es) (lowerList R' s es)
  | [], _, _ => gives_refl _
  | e :: es, s, he => gives_andThen (hR s e (he e (by simp))) fun p _ =>
    gives_andThen (gives_lowerList hR es p.1 fun x hx => he x (by simp [hx])) fun _ _ => gives_refl _

theorem gives_powExtract (hR : GivesL R R') (s : Low F) {b e : Expr F} (hb : O b) : Gives (powExtract R s b e) (powExtract R' s b e) := by
  unfold powExtract
  split
  · split
    · exact gives_andThen (hR s b hb) fun _ _ => gives_refl _
    · exact gives_refl _
  · split
    · exact gives_andThen (hR s b hb) fun _ _ => gives_refl _
    · exact gives_refl _
  · exact gives_refl _

theorem gives_bySquaring (hR : GivesL R R') (s : Low F) (b e : Nat) : Gives (bySquaring R s b e) (bySquaring R' s b e) := by
  unfold bySquaring
  split
  · exact hR s _ (oInt 1)
  · exact gives_refl _

theorem gives_factor (hR : GivesL R R') (s : Low F) {t : Expr F} (ht : O t) : Gives (factorValues.factor R s t) (factorValues.factor R' s t) := by
  unfold factorValues.factor
  split
  · rename_i b e
    refine gives_andThen (gives_powExtract hR s (oPow.1 ht).1.1) fun x _ => ?_
    split
    · exact gives_refl _
    · exact gives_andThen (hR s _ ht) fun _ _ => gives_refl _
  · exact gives_andThen (hR s _ ht) fun _ _ => gives_refl _

theorem gives_factorValues (hR : GivesL R R') : ∀ (ts : List (Expr F)) (s : Low F), (∀ t ∈ ts, O t) → Gives (factorValues R s ts) (factorValues R' s ts)
  | [], _, _ => gives_refl _
  | t :: ts, s, ht => gives_andThen (gives_factor hR s (ht t (by simp))) fun p _ =>
    gives_andThen (gives_factorValues hR ts p.1 fun x hx => ht x (by simp [hx])) fun _ _ => gives_refl _

section
variable (hK : Agree PB K K')
include hK

theorem negateFirst_agrees : ∀ (ts : List (Expr F)) (r : List (Expr F) × Bool), (∀ t ∈ ts, O t) → negateFirst K ts = .ok r →
    negateFirst K' ts = .ok r ∧ ∀ t ∈ r.1, O t
  | [], r, _, h => by cases h; exact ⟨rfl, by simp⟩
  | t :: ts, r, ht, h => by
    have hts : ∀ x ∈ ts, O x := fun x hx => ht x (by simp [hx])
    unfold negateFirst at h ⊢
    split at h
    · rename_i n
      split at h
      · rename_i hn
        rw [if_pos hn]
        obtain ⟨t', h1, h2⟩ := andThen_ok h
        obtain ⟨h3, h4⟩ := tr_negE hK (oInt n) t' h1
        cases h2
        unfold andThen
        rw [h3]
        refine ⟨rfl, fun x hx => ?_⟩
        rcases List.mem_cons.1 hx with rfl | hx
        · exact h4
        · exact hts x hx
      · rename_i hn
        rw [if_neg hn]
        obtain ⟨q, h1, h2⟩ := andThen_ok h
        obtain ⟨h3, h4⟩ := negateFirst_agrees ts q hts h1
        cases h2
        unfold andThen
        rw [h3]
        refine ⟨rfl, fun x hx => ?_⟩
        rcases List.mem_cons.1 hx with rfl | hx
        · exact oInt n
        · exact h4 x hx
    · obtain ⟨q, h1, h2⟩ := andThen_ok h
      obtain ⟨h3, h4⟩ := negateFirst_agrees ts q hts h1
      cases h2
      unfold andThen
      rw [h3]
      refine ⟨rfl, fun x hx => ?_⟩
      rcases List.mem_cons.1 hx with rfl | hx
      · exact ht _ (by simp)
      · exact h4 x hx

theorem gives_lowerMul (hR : GivesL R R') (s : Low F) {ts : List (Expr F)} (ht : ∀ t ∈ ts, O t) : Gives (lowerMul K R s ts) (lowerMul K' R' s ts) := by
  unfold lowerMul
  refine gives_andThen (fun r hr => (negateFirst_agrees hK ts r ht hr).1) fun r hr => gives_andThen (gives_factorValues hR _ s ?_) fun _ _ => gives_refl _
  have h1 := (negateFirst_agrees hK ts r ht hr).2
  split
  · intro t ht
    rcases List.mem_append.1 ht with ht | ht
    · exact h1 t ht
    · rw [List.mem_singleton] at ht; subst ht; exact oInt _
  · exact h1

theorem gives_lowerRecip (hR : GivesL R R') (s : Low F) {b e : Expr F} (hb : O b) (he : O e) (hp : PowArgs PB b e) :
    Gives (lowerRecip K R s b e) (lowerRecip K' R' s b e) := by
  unfold lowerRecip
  refine gives_andThen (gives_tr (tr_negE hK he)) fun ne hne => ?_
  have h1 := (tr_negE hK he ne hne).2
  have h2 : TermArgs PB b ne := by
    left
    rcases hp with hp | ⟨q1, q2⟩
    · exact Or.inl (hK.mulInt _ _ _ ⟨-1, rfl, by decide⟩ hp hne)
    · exact Or.inr ⟨q1, fun hn => hK.mulRat _ _ _ rfl (q2 hn) hne⟩
  refine gives_andThen (gives_tr (tr_pow hK hb h1 h2)) fun r hr => ?_
  refine gives_andThen (hR _ r (tr_pow hK hb h1 h2 r hr).2) fun p _ => ?_
  exact gives_andThen (hR _ _ (oInt 1)) fun _ _ => gives_refl _

omit hK in
theorem gives_lowerPowCall (hR : GivesL R R') (s : Low F) {b e : Expr F} (hb : O b) (he : O e) : Gives (lowerPowCall R s b e) (lowerPowCall R' s b e) := by
  unfold lowerPowCall
  exact gives_andThen (hR s b hb) fun p _ => gives_andThen (hR _ e he) fun _ _ => gives_refl _

theorem gives_lowerPow (hR : GivesL R R') (s : Low F) {b e : Expr F} (hb : O b) (he : O e) (hp : PowArgs PB b e) :
    Gives (lowerPow K R s b e) (lowerPow K' R' s b e) := by
  unfold lowerPow
  split
  · exact gives_lowerRecip hK hR s hb he hp
  · refine gives_andThen (gives_powExtract hR s hb) fun x _ => ?_
    split
    · exact gives_bySquaring hR _ _ _
    · exact gives_lowerPowCall hR s hb he

omit hK in
theorem gives_lowerCond (hR : GivesL R R') (s : Low F) {c a b : Expr F} (hc : O c) (ha : O a) (hb : O b) : Gives (lowerCond R s c a b) (lowerCond R' s c a b) := by
  unfold lowerCond
  exact gives_andThen (hR s c hc) fun p _ => gives_andThen (hR _ a ha) fun _ _ => gives_andThen (hR _ b hb) fun _ _ => gives_refl _

omit hK in
theorem gives_lowerRel (hR : GivesL R R') (s : Low F) (op : RelOp) {a b : Expr F} (ha : O a) (hb : O b) : Gives (lowerRel R s op a b) (lowerRel R' s op a b) := by
  unfold lowerRel
  exact gives_andThen (hR _ a ha) fun _ _ => gives_andThen (hR _ b hb) fun _ _ => gives_refl _

theorem gives_lowerNode (hR : GivesL R R') (s : Low F) {e : Expr F} (he : O e) : Gives (lowerNode K R s e) (lowerNode K' R' s e) := by
  unfold lowerNode
  split
  · split
    · exact gives_refl _
    · exact gives_andThen (gives_lowerList hR _ s (oAdd.1 he)) fun _ _ => gives_refl _
  · split
    · exact gives_refl _
    · exact gives_lowerMul hK hR s (oMul.1 he)
  · obtain ⟨⟨h1, h2⟩, h3⟩ := oPow.1 he
    exact gives_lowerPow hK hR s h1 h2 h3
  · unfold lowerFn
    exact gives_andThen (gives_lowerList hR _ _ (oFn.1 he)) fun _ _ => gives_refl _
  · have h := (oNode (by simp)).1 he
    exact gives_lowerCond hR s (h _ (by simp)) (h _ (by simp)) (h _ (by simp))
  · have h := (oNode (by simp)).1 he
    exact gives_lowerRel hR s _ (h _ (by simp)) (h _ (by simp))
  · have h := (oNode (by simp)).1 he
    split
    · exact gives_andThen (hR s _ (h _ (by simp))) fun _ _ => gives_refl _
    · exact gives_refl _
  · exact hR s _ ((oNode (by simp)).1 he _ (by simp))
  · exact hR s _ ((oNode (by simp)).1 he _ (by simp))
  all_goals exact gives_refl _

theorem gives_lower : ∀ n, GivesL (lower K n) (lower K' n)
  | 0 => fun _ _ _ => gives_refl _
  | n + 1 => fun s e he => by
    unfold lower
    split
    · exact gives_refl _
    · exact gives_andThen (gives_lowerNode hK (gives_lower n) s he) fun _ _ => gives_refl _

/-! ## Sorting -/

omit [FnSem F] hK in
theorem leaf_of_rat {e : Expr F} (h : isRatConst e = true) : ∃ hd : Head F, e = .node hd [] ∧ hd.isLeaf = true ∧ hd ≠ .add ∧ hd ≠ .mul := by
  unfold isRatConst at h
  split at h
  · exact ⟨_, rfl, rfl, by simp, by simp⟩
  · exact ⟨_, rfl, rfl, by simp, by simp⟩
  · cases h

omit hK in
theorem sort_leaf {m n : Nat} {hd : Head F} {as : List (Expr F)} {r : Expr F} (hl : hd.isLeaf = true)
    (h : sortExpr K m n (.node hd as) = .ok r) : r = .node hd as := by
  cases n with
  | zero => cases h
  | succ n =>
    change sortBody K m _ _ = _ at h
    unfold sortBody at h
    split at h
    · rename_i heq; cases heq; exact absurd hl (by simp [Head.isLeaf])
    · rename_i heq; cases heq; exact absurd hl (by simp [Head.isLeaf])
    · rename_i heq
      cases heq
      rw [if_pos hl] at h
      cases h
      rfl

omit hK in
theorem sort_add {m n : Nat} {as : List (Expr F)} {r : Expr F} (h : sortExpr K m n (.node .add as) = .ok r) : ∃ bs, r = .add bs := by
  cases n with
  | zero => cases h
  | succ n =>
    change andThen _ _ = _ at h
    obtain ⟨bs, _, h2⟩ := andThen_ok h
    split at h2
    · cases h2
    · cases h2; exact ⟨_, rfl⟩

omit hK in
/-- Sorting keeps allowed powers allowed. -/
theorem sort_powArgs {m n : Nat} {b e b' e' : Expr F} (hp : PowArgs PB b e) (hb : sortExpr K m n b = .ok b') (he : sortExpr K m n e = .ok e') :
    PowArgs PB b' e' := by
  rcases hp with ⟨k, rfl, hk⟩ | ⟨h1, h2⟩
  · exact Or.inl ⟨k, sort_leaf rfl he, hk⟩
  · right
    have h3 : plainBase b' = true ∧ (isRatConst b' = true → b' = b) := by
      obtain ⟨hd, as⟩ := b
      have h0 : plainBase (.node hd as) = true := h1
      unfold PB plainBase at h1
      split at h1
      · rename_i heq
        cases heq
        obtain ⟨bs, rfl⟩ := sort_add hb
        exact ⟨rfl, fun h => by cases h⟩
      · cases h1
      · rename_i h4 h5 heq
        cases heq
        rw [sort_leaf h1 hb]
        exact ⟨h0, fun _ => rfl⟩
    refine ⟨h3.1, fun h => ?_⟩
    have h4 := h3.2 h
    subst h4
    obtain ⟨hd, rfl, h5, _⟩ := leaf_of_rat (h2 h)
    rw [sort_leaf h5 he]
    exact h2 h

omit hK in
theorem o_canonSort {ts : List (Expr F)} (h : ∀ t ∈ ts, O t) : ∀ t ∈ canonSort ts, O t :=
  fun t ht => h t ((List.perm_insertionSort _ _).mem_iff.1 ht)

theorem tr_sortBody (m : Nat) {S S' : Expr F → Res (Expr F)} {h : Head F} {as : List (Expr F)} (he : O (.node h as)) (ih : ∀ x ∈ as, Tr PB (S x) (S' x))
    (hp : ∀ b e b' e', PowArgs PB b e → S b = .ok b' → S e = .ok e' → PowArgs PB b' e') :
    Tr PB (sortBody K m S (.node h as)) (sortBody K' m S' (.node h as)) := by
  unfold sortBody
  split
  · rename_i heq
    cases heq
    intro r hr
    obtain ⟨bs, h1, h2⟩ := andThen_ok hr
    obtain ⟨h3, h4⟩ := g_mapRes (B := PB) (f' := S') h1 ih
    unfold andThen
    rw [h3]
    refine ⟨h2, ?_⟩
    split at h2
    · cases h2
    · cases h2; exact oAdd.2 (o_canonSort h4)
  · rename_i heq
    cases heq
    intro r hr
    obtain ⟨bs, h1, h2⟩ := andThen_ok hr
    obtain ⟨h3, h4⟩ := g_mapRes (B := PB) (f' := S') h1 ih
    unfold andThen
    rw [h3]
    refine ⟨h2, ?_⟩
    split at h2
    · cases h2
    · cases h2; exact oMul.2 (o_canonSort h4)
  · rename_i heq
    cases heq
    refine tr_ite (tr_ok he) (tr_mapChildren hK ih fun b e b' e' hh has hb hee _ _ => Or.inl ?_)
    subst hh has
    exact hp _ _ _ _ (oPow.1 he).2 hb hee

theorem tr_sortExpr (m : Nat) : ∀ (n : Nat) {e : Expr F}, O e → Tr PB (sortExpr K m n e) (sortExpr K' m n e)
  | 0, _, _ => tr_error
  | n + 1, .node _ _, he => tr_sortBody hK m he (fun x hx => tr_sortExpr m n ((over_node.1 he).2 x hx)) fun _ _ _ _ hp hb hh => sort_powArgs hp hb hh

/-! ## Outputs -/

theorem gives_lowerElements (hR : GivesL R R') : ∀ (es : List (Expr F)) (s : Low F), (∀ e ∈ es, O e) → Gives (lowerElements R s es) (lowerElements R' s es)
  | [], _, _ => gives_refl _
  | e :: es, s, he => gives_andThen (hR s e (he e (by simp))) fun p _ =>
    gives_andThen (gives_lowerElements hR es _ fun x hx => he x (by simp [hx])) fun _ _ => gives_refl _

theorem gives_addOutput (m n : Nat) (s : Low F) (key : Nat) {o : Output F} (ho : ∀ e ∈ o.exprs, O e) : Gives (addOutput K m n s key o) (addOutput K' m n s key o) := by
  cases o with
  | scalar e t =>
    have h1 := tr_sortExpr hK m n (ho e (by simp [Output.exprs]))
    exact gives_andThen (gives_tr h1) fun e' he' => gives_andThen (gives_lower hK n s e' (h1 e' he').2) fun _ _ => gives_refl _
  | matrix r c es =>
    have h1 : ∀ es', mapRes (sortExpr K m n) es = .ok es' → mapRes (sortExpr K' m n) es = .ok es' ∧ ∀ e ∈ es', O e :=
      fun es' h => g_mapRes (B := PB) h fun a ha b hb => tr_sortExpr hK m n (ho a (by simpa [Output.exprs] using ha)) b hb
    exact gives_andThen (fun es' h => (h1 es' h).1) fun es' he' => gives_andThen (gives_lowerElements hK (gives_lower hK n) es' s (h1 es' he').2)
      fun _ _ => gives_refl _

theorem gives_lowerFunction (m n : Nat) : ∀ (outs : List (Nat × Output F)) (s : Low F), (∀ o ∈ outs, ∀ e ∈ o.2.exprs, O e) →
    Gives (lowerFunction K m n s outs) (lowerFunction K' m n s outs)
  | [], _, _ => gives_refl _
  | (key, o) :: os, s, h => gives_andThen (gives_addOutput hK m n s key (h (key, o) (by simp))) fun s' _ =>
    gives_lowerFunction m n os s' fun x hx => h x (by simp [hx])
end

/-- Every lowering of such expressions is lawful. -/
theorem lowering_lawful {ρ : Env F} {nK m n : Nat} {outs : List (Nat × Output F)} {s : Low F} (ho : ∀ o ∈ outs, ∀ e ∈ o.2.exprs, PlainPowers e)
    (h : lowerFunction (ctors codeLic nK) m n Low.empty outs = .ok s) : LawfulLowering ρ nK m n outs s :=
  ⟨h, sureLic, sureLic_true ρ, by rw [gives_lowerFunction (plain_agrees nK) m n outs _ ho s h]; rfl⟩

end Wf.Sym
