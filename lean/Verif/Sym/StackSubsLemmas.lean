import Verif.Sym.StackFnLemmas

/-! # Substitution with more stack -/

namespace Wf.Sym.Stack

variable {F : Type} [FnOps F] [DecidableEq F]

/-- Go on if the step returns. -/
local macro "via " h:term : tactic => `(tactic| (have hb := $h; rcases hb with hx | hx <;> rw [hx] <;> (try exact Or.inl rfl) <;> split <;> (try exact Below.refl _)))

/-- Visitors that lie below others. -/
def BelowV (R R' : Expr F → Res (Expr F)) : Prop := ∀ e, Below (R e) (R' e)

variable {K K' : Ctors F} (hK : BelowK K K') {R R' : Expr F → Res (Expr F)} (hR : BelowV R R') (lic : Lic F) {m m' : Nat} (hm : m ≤ m')
include hK hm

theorem below_rebuild (h : Head F) (bs : List (Expr F)) : Below (rebuild K m h bs) (rebuild K' m' h bs) := by
  unfold rebuild
  split
  all_goals first
    | exact .refl _
    | exact hK.add _
    | exact hK.mul _
    | exact hK.pow _ _
    | exact below_atan2Fn hK _ _
    | exact below_fns hK hm _ _

omit hK hm
include hR in
theorem below_mapCond (c a b : Expr F) : Below (mapCond R c a b) (mapCond R' c a b) := by
  unfold mapCond
  via hR c
  split
  · exact hR a
  split
  · exact hR b
  · via hR a
    via hR b

include hK hR hm in
theorem below_mapChildren (e : Expr F) : Below (mapChildren K m R e) (mapChildren K' m' R' e) := by
  unfold mapChildren
  split
  · exact below_mapCond hR _ _ _
  · next h as _ =>
    via below_mapRes hR as
    exact below_rebuild hK hm _ _

include hK hR hm in
theorem below_descend (e : Expr F) : Below (descend K m R e) (descend K' m' R' e) := by
  unfold descend
  split
  · exact .refl _
  · exact below_mapChildren hK hR hm e

include hK

theorem below_addPartsOf (ts : List (Expr F)) : Below (addPartsOf K ts) (addPartsOf K' ts) := by
  unfold addPartsOf
  via below_foldRes (below_addTerm hK) ⟨.int 0, []⟩ (flatAdds ts)

theorem below_createSumRaw (p : AddParts F) : Below (createSumRaw K p) (createSumRaw K' p) := by
  unfold createSumRaw
  split
  · exact .refl _
  split
  · exact .refl _
  · via below_mapRes (below_sumOperand hK) p.terms

theorem below_removeConst (p : AddParts F) (c : Coeff F) : Below (removeConst K p c) (removeConst K' p c) := by
  unfold removeConst
  split
  · exact .refl _
  split
  · exact .refl _
  · next x _ =>
    via below_negE hK x
    exact below_foldRes (below_addTerm hK) _ _

theorem below_finishAddPartial (p : AddParts F) (tc : Coeff F) (r : Expr F) : Below (finishAddPartial K p tc r) (finishAddPartial K' p tc r) := by
  unfold finishAddPartial
  via below_removeConst hK p tc
  next p1 _ =>
  via below_foldRes (below_addTerm hK) p1 (flatAdd r)
  exact below_createSumRaw hK _

theorem below_addPartial (ts : List (Expr F)) (r : Expr F) (cs : List (Expr F)) : Below (addPartial K ts r cs) (addPartial K' ts r cs) := by
  unfold addPartial
  via below_addPartsOf hK ts
  via below_addPartsOf hK cs
  split
  · exact .refl _
  split
  · exact .refl _
  · exact below_finishAddPartial hK _ _ _

theorem below_insertFactor (s : Bool) (p : MulParts F) (f : PrimeFactor) : Below (insertFactor K s p f) (insertFactor K' s p f) := by
  unfold insertFactor
  split
  · exact .refl _
  · next e0 _ => via hK.add [e0, .int (if s then f.exponent else -f.exponent)]

theorem below_insertFactors (s : Bool) (p : MulParts F) (n : Int) : Below (insertFactors K s p n) (insertFactors K' s p n) := by
  unfold insertFactors
  split
  · exact .refl _
  · exact below_foldRes (below_insertFactor hK s) _ _

theorem below_mulTermF (p : MulParts F) (t : Expr F) : Below (mulTermF K lic p t) (mulTermF K' lic p t) := by
  unfold mulTermF
  split
  · exact below_insertFactors hK _ _ _
  · next r => 
    via below_insertFactors hK true p r.n
    exact below_insertFactors hK _ _ _
  · exact below_mulTerm hK lic _ _

theorem below_visitF : ∀ {n n' : Nat}, n ≤ n' → ∀ p t, Below (visitF K lic n p t) (visitF K' lic n' p t)
  | 0, _, _ => fun _ _ => .inl rfl
  | _ + 1, 0, h => absurd h (by omega)
  | n + 1, n' + 1, h => fun p t => by
    have ih := below_visitF (Nat.le_of_succ_le_succ h)
    have hK2 : BelowK { K with visit := visitF K lic n } { K' with visit := visitF K' lic n' } := ⟨hK.add, hK.mul, hK.pow, ih⟩
    exact below_foldRes (below_mulTermF hK2 lic) _ _

include hm in
theorem below_mulPartsOf (ts : List (Expr F)) : Below (mulPartsOf K lic m ts) (mulPartsOf K' lic m' ts) := by
  unfold mulPartsOf
  via below_foldRes (below_visitF hK lic hm) ⟨.int 1, []⟩ ts

theorem below_maxExponent (it : List (Expr F × Expr F)) : ∀ best tt, Below (maxExponent K it best tt) (maxExponent K' it best tt)
  | _, [] => .refl _
  | best, (b, x) :: tt => by
    unfold maxExponent
    split
    · exact .refl _
    · next e _ =>
      via below_divE hK e x
      repeat' first | exact .refl _ | exact below_maxExponent it _ tt | split

theorem below_deduct (k : Int) (it : List (Expr F × Expr F)) (bx : Expr F × Expr F) : Below (deduct K k it bx) (deduct K' k it bx) := by
  unfold deduct
  split
  · exact .refl _
  · next e _ =>
    via hK.mul [bx.2, .int k]
    next xk _ =>
    via below_subE hK e xk

theorem below_insertReplacement (k : Int) (r : Expr F) (it : List (Expr F × Expr F)) :
    Below (insertReplacement K k r it) (insertReplacement K' k r it) := by
  unfold insertReplacement
  split
  · exact .refl _
  · next e _ => via hK.add [e, .int k]

theorem below_finishMulPartial (c : Coeff F) (it tt : List (Expr F × Expr F)) (k : Int) (r : Expr F) :
    Below (finishMulPartial K c it tt k r) (finishMulPartial K' c it tt k r) := by
  unfold finishMulPartial
  via below_foldRes (below_deduct hK k) it tt
  next it1 _ =>
  via below_insertReplacement hK k r it1
  exact below_createProduct hK _

include hm in
theorem below_mulPartial (ts : List (Expr F)) (r : Expr F) (cs : List (Expr F)) : Below (mulPartial K lic m ts r cs) (mulPartial K' lic m' ts r cs) := by
  unfold mulPartial
  via below_mulPartsOf hK lic hm ts
  next tp _ =>
  via below_mulPartsOf hK lic hm cs
  next ip _ =>
  split
  · exact .refl _
  · via below_maxExponent hK ip.terms none tp.terms
    exact below_finishMulPartial hK _ _ _ _ _

theorem below_mulPow (a x b y : Expr F) : Below (mulPow K a x b y) (mulPow K' a x b y) := by
  unfold mulPow
  via hK.pow a x
  via hK.pow b y
  exact hK.mul _

theorem below_powPartialSum (cand base r tc tm : Expr F) (p : AddParts F) (c0 : Expr F) :
    Below (powPartialSum K cand base r tc tm p c0) (powPartialSum K' cand base r tc tm p c0) := by
  unfold powPartialSum
  via below_divE hK c0 tc
  · via below_createSumRaw hK { p with terms := eraseKey tm p.terms }
    exact below_mulPow hK _ _ _ _
  · split
    · exact .refl _
    split
    · exact .refl _
    · next q _ _ =>
      via hK.mul [tc, .int q.1]
      next s _ =>
      via below_subE hK c0 s
      next c1 _ =>
      via below_createSumRaw hK { p with terms := setKey tm c1 p.terms }
      exact below_mulPow hK _ _ _ _

theorem below_powPartialMul (cand base r te ce : Expr F) : Below (powPartialMul K cand base r te ce) (powPartialMul K' cand base r te ce) := by
  unfold powPartialMul
  via below_divE hK ce te
  · exact hK.pow _ _
  · split
    · exact .refl _
    split
    · exact .refl _
    split
    · exact .refl _
    · next f _ =>
      via hK.mul [te, f]
      exact below_mulPow hK _ _ _ _

theorem below_powPartial (tb te r cb ce : Expr F) : Below (powPartial K tb te r cb ce) (powPartial K' tb te r cb ce) := by
  unfold powPartial
  split
  · split
    · next es =>
      via below_addPartsOf hK es
      split
      · exact .refl _
      · exact below_powPartialSum hK _ _ _ _ _ _ _
    · exact below_powPartialMul hK _ _ _ _ _
  · exact .refl _

include hm

theorem below_attemptPartial (t r e : Expr F) : Below (attemptPartial K lic m t r e) (attemptPartial K' lic m' t r e) := by
  unfold attemptPartial
  split
  · exact below_addPartial hK _ _ _
  · exact below_mulPartial hK lic hm _ _ _
  · exact below_powPartial hK _ _ _ _ _
  · exact .refl _

include hR in
theorem below_substBody (t r e : Expr F) : Below (substBody K lic m t r R e) (substBody K' lic m' t r R' e) := by
  unfold substBody
  split
  · exact .refl _
  · via below_attemptPartial hK lic hm t r e
    exact below_descend hK hR hm _

include hR in
theorem below_substVarsBody (σ : List (Expr F × Expr F)) (e : Expr F) : Below (substVarsBody K m σ R e) (substVarsBody K' m' σ R' e) := by
  unfold substVarsBody
  split
  · exact .refl _
  · exact below_descend hK hR hm _

omit hK hm

theorem below_visitor {body body' : (Expr F → Res (Expr F)) → Expr F → Res (Expr F)}
    (hb : ∀ R R' : Expr F → Res (Expr F), BelowV R R' → ∀ e, Below (body R e) (body' R' e)) :
    ∀ {n n' : Nat}, n ≤ n' → BelowV (visitor body n) (visitor body' n')
  | 0, _, _ => fun _ => .inl rfl
  | _ + 1, 0, h => absurd h (by omega)
  | _ + 1, _ + 1, h => fun e => hb _ _ (below_visitor hb (Nat.le_of_succ_le_succ h)) e

include hK hm
variable {n n' : Nat} (hn : n ≤ n')
include hn

theorem below_substSingle (e : Expr F) (pair : Expr F × Expr F) : Below (substSingle K lic m n e pair) (substSingle K' lic m' n' e pair) := by
  unfold substSingle
  split
  · exact .refl _
  · exact below_visitor (fun _ _ hR e => below_substBody hK hR lic hm _ _ e) hn e

theorem below_substVars (σ : List (Expr F × Expr F)) (e : Expr F) : Below (substVars K m n σ e) (substVars K' m' n' σ e) :=
  below_visitor (fun _ _ hR e => below_substVarsBody hK hR hm σ e) hn e

theorem below_substAny (force : Bool) (e : Expr F) (pairs : List (Expr F × Expr F)) :
    Below (substAny K lic m n force e pairs) (substAny K' lic m' n' force e pairs) := by
  unfold substAny
  split
  · split
    · exact below_substVars hK hm hn _ e
    · exact below_foldRes (below_substSingle hK lic hm hn) _ _
  · exact below_foldRes (below_substSingle hK lic hm hn) _ _

end Wf.Sym.Stack
