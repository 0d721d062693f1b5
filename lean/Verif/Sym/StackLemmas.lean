import Verif.Sym.CtorModel

/-! # More stack gives the same result -/

namespace Wf.Sym.Stack

variable {F : Type} [DecidableEq F] [FloatOps F] {α β σ : Type}

/-- The same, unless the first runs out of stack. -/
def Below (x y : Res α) : Prop := x = .error .terminate ∨ x = y

theorem Below.refl (x : Res α) : Below x x := .inr rfl

theorem Below.trans {x y z : Res α} (h : Below x y) (h' : Below y z) : Below x z := by
  rcases h with h | h
  · exact .inl h
  · exact h ▸ h'

/-- All constructors. -/
structure BelowK (K K' : Ctors F) : Prop where
  add : ∀ ts, Below (K.add ts) (K'.add ts)
  mul : ∀ ts, Below (K.mul ts) (K'.mul ts)
  pow : ∀ b e, Below (K.pow b e) (K'.pow b e)
  visit : ∀ p t, Below (K.visit p t) (K'.visit p t)

/-- Go on if the step returns. -/
local macro "via " h:term : tactic => `(tactic| (have hb := $h; rcases hb with hx | hx <;> rw [hx] <;> (try exact Or.inl rfl) <;> split <;> (try exact Below.refl _)))

theorem below_mapRes {f g : α → Res β} (h : ∀ a, Below (f a) (g a)) : ∀ l, Below (mapRes f l) (mapRes g l)
  | [] => .refl _
  | a :: as => by
    unfold mapRes
    via h a
    via below_mapRes h as

theorem below_foldRes {f g : σ → α → Res σ} (h : ∀ s a, Below (f s a) (g s a)) : ∀ s l, Below (foldRes f s l) (foldRes g s l)
  | _, [] => .refl _
  | s, a :: as => by
    unfold foldRes
    via h s a
    exact below_foldRes h _ as

variable {K K' : Ctors F} (hK : BelowK K K') (lic : Lic F)
include hK

theorem below_addTerm (p : AddParts F) (t : Expr F) : Below (addTerm K p t) (addTerm K' p t) := by
  unfold addTerm
  split
  · exact .refl _
  · split
    · exact .refl _
    · next c0 _ => via hK.add [c0, (asCoeffMul t).1]

theorem below_sumOperand (mc : Expr F × Expr F) : Below (sumOperand K mc) (sumOperand K' mc) := by
  unfold sumOperand
  split
  · exact .refl _
  · split
    · exact hK.mul _
    · exact hK.mul _
    · exact .refl _

theorem below_createSum (p : AddParts F) : Below (createSum K p) (createSum K' p) := by
  unfold createSum
  split
  · exact .refl _
  · split
    · exact .refl _
    · via below_mapRes (below_sumOperand hK) (p.terms.filter (fun mc => !isInt 0 mc.2))

theorem below_sumGeneral (ts : List (Expr F)) : Below (sumGeneral K ts) (sumGeneral K' ts) := by
  unfold sumGeneral
  via below_foldRes (below_addTerm hK) ⟨.int 0, []⟩ (flatAdds ts)
  exact below_createSum hK _

theorem below_addFrom (ts : List (Expr F)) : Below (addFrom K ts) (addFrom K' ts) := by
  unfold addFrom
  split
  · exact .refl _
  · exact .refl _
  · split
    · exact .refl _
    · exact .refl _
    · exact below_sumGeneral hK _
  · exact below_sumGeneral hK _

theorem below_fromComplex (c : F × F) : Below (fromComplex K c) (fromComplex K' c) := by
  unfold fromComplex
  split
  · exact .refl _
  via hK.mul [floatExpr c.2, .imag]
  exact hK.add _

theorem below_expFn (x : Expr F) : Below (expFn K x) (expFn K' x) := by
  unfold expFn
  repeat' split
  all_goals first | exact .refl _ | exact below_fromComplex hK _

theorem below_numPowExpr (x : NumPow) : Below (numPowExpr K x) (numPowExpr K' x) := by
  cases x <;> first | exact .refl _ | (simp only [numPowExpr]; split <;> first | exact .refl _ | exact hK.mul _)

theorem below_numPowRes (x : Res NumPow) : Below (numPowRes K x) (numPowRes K' x) := by
  unfold numPowRes
  split
  · exact .refl _
  · next y => via below_numPowExpr hK y

theorem below_powNumeric (b e : Expr F) : Below (powNumeric K lic b e) (powNumeric K' lic b e) := by
  unfold powNumeric
  split <;> first | exact .refl _ | exact below_numPowRes hK _

theorem below_distributeExp (ts : List (Expr F)) (e : Expr F) : Below (distributeExp K lic ts e) (distributeExp K' lic ts e) := by
  unfold distributeExp
  rcases below_mapRes (fun t => hK.pow t e) (ts.filter lic.nonneg) with h | h
  · rw [h]; exact .inl rfl
  · rw [h]
    split
    · exact .refl _
    · exact .refl _
    · next ps _ _ =>
      via hK.mul ps
      next a _ =>
      split
      · exact .refl _
      · via hK.mul (ts.filter (fun t => !lic.nonneg t))
        next r _ =>
        via hK.pow r e
        next p _ =>
        via hK.mul [a, p]

theorem below_powProduct (ts : List (Expr F)) (e : Expr F) : Below (powProduct K ts e) (powProduct K' ts e) := by
  unfold powProduct
  via below_mapRes (fun t => hK.pow t e) ts
  next ps _ =>
  via hK.mul ps

theorem below_powTail (b e : Expr F) : Below (powTail K lic b e) (powTail K' lic b e) := by
  unfold powTail
  split
  · exact .refl _
  split
  · exact .refl _
  split
  · exact .refl _
  split
  · exact below_powProduct hK _ _
  · exact below_distributeExp hK lic _ _
  · exact .refl _

theorem below_powNested (b e : Expr F) : Below (powNested K lic b e) (powNested K' lic b e) := by
  unfold powNested
  split
  · split
    · exact .refl _
    · exact below_powTail hK lic _ _
    · next b0 e0 _ _ =>
      via hK.mul [e0, e]
      next x _ =>
      via hK.pow b0 x
  · split
    · next x _ =>
      via hK.mul [x, e]
      next y _ =>
      via below_expFn hK y
    · exact below_powTail hK lic _ _
  · exact below_powTail hK lic _ _

theorem below_powSymbolic (b e : Expr F) : Below (powSymbolic K lic b e) (powSymbolic K' lic b e) := by
  unfold powSymbolic
  split
  · exact .refl _
  split
  · exact .refl _
  · exact .refl _
  · split
    · via below_expFn hK e
    · exact below_powNested hK lic _ _

theorem below_powSimplify (b e : Expr F) : Below (powSimplify K lic b e) (powSimplify K' lic b e) := by
  unfold powSimplify
  rcases below_powNumeric hK lic b e with h | h
  · rw [h]; exact .inl rfl
  · rw [h]
    split
    · exact .refl _
    · exact .refl _
    · exact below_powSymbolic hK lic _ _

theorem below_powCreate (b e : Expr F) : Below (powCreate K lic b e) (powCreate K' lic b e) := by
  unfold powCreate
  rcases below_powSimplify hK lic b e with h | h
  · rw [h]; exact .inl rfl
  · rw [h]; exact .refl _

theorem below_mergePower (p : MulParts F) (b u : Expr F) : Below (mergePower K lic p b u) (mergePower K' lic p b u) := by
  unfold mergePower
  split
  · rcases below_powSimplify hK lic b u with h | h
    · rw [h]; exact .inl rfl
    · rw [h]
      split
      · exact .refl _
      · split
        · exact hK.visit _ _
        · exact .refl _
      · exact .refl _
  · exact .refl _

theorem below_insertPower (p : MulParts F) (b e : Expr F) : Below (insertPower K lic p b e) (insertPower K' lic p b e) := by
  unfold insertPower
  split
  · exact .refl _
  · next e0 _ =>
    via hK.add [e0, e]
    exact below_mergePower hK lic _ _ _

theorem below_mulTerm (p : MulParts F) (t : Expr F) : Below (mulTerm K lic p t) (mulTerm K' lic p t) := by
  unfold mulTerm
  split
  · exact .refl _
  · split
    · exact below_insertPower hK lic _ _ _
    · exact below_insertPower hK lic _ _ _
    · exact below_insertPower hK lic _ _ _

theorem below_mulVisit (p : MulParts F) (t : Expr F) : Below (mulVisit K lic p t) (mulVisit K' lic p t) :=
  below_foldRes (below_mulTerm hK lic) _ _

theorem below_createStep (st : CreateSt F) (be : Expr F × Expr F) : Below (createStep K st be) (createStep K' st be) := by
  unfold createStep
  via hK.pow be.1 be.2

theorem below_mulIntoAdd (ts : List (Expr F)) (c : Expr F) : Below (mulIntoAdd K ts c) (mulIntoAdd K' ts c) := by
  unfold mulIntoAdd
  via below_mapRes (fun t => hK.mul [t, c]) ts
  exact hK.add _

theorem below_finishProduct (c : Expr F) (args : List (Expr F)) : Below (finishProduct K c args) (finishProduct K' c args) := by
  unfold finishProduct
  split
  · exact .refl _
  · split
    · exact below_mulIntoAdd hK _ _
    · exact .refl _
    · exact .refl _

theorem below_createProduct (p : MulParts F) : Below (createProduct K p) (createProduct K' p) := by
  unfold createProduct
  via below_foldRes (below_createStep hK) (p.coeff, []) (p.terms.filter (fun be => !isInt 0 be.2))
  split
  · exact .refl _
  · exact below_finishProduct hK _ _

theorem below_productGeneral (ts : List (Expr F)) : Below (productGeneral K lic ts) (productGeneral K' lic ts) := by
  unfold productGeneral
  via below_foldRes (below_mulVisit hK lic) ⟨.int 1, []⟩ ts
  exact below_createProduct hK _

theorem below_mulTwo (a b : Expr F) : Below (mulTwo K lic a b) (mulTwo K' lic a b) := by
  unfold mulTwo
  split
  · split
    · exact below_mulIntoAdd hK _ _
    · exact below_productGeneral hK lic _
  · split
    · exact below_mulIntoAdd hK _ _
    · exact below_productGeneral hK lic _
  · exact below_productGeneral hK lic _

theorem below_mulFrom (ts : List (Expr F)) : Below (mulFrom K lic ts) (mulFrom K' lic ts) := by
  unfold mulFrom
  split
  · exact .refl _
  · exact .refl _
  · exact below_mulTwo hK lic _ _
  · exact below_productGeneral hK lic _

theorem below_step : BelowK (step lic K) (step lic K') :=
  ⟨below_addFrom hK, below_mulFrom hK lic, below_powCreate hK lic, below_mulVisit hK lic⟩

omit hK in
theorem below_succ : ∀ n, BelowK (ctors lic n) (ctors lic (n + 1))
  | 0 => ⟨fun _ => .inl rfl, fun _ => .inl rfl, fun _ _ => .inl rfl, fun _ _ => .inl rfl⟩
  | n + 1 => below_step (below_succ n) lic

omit hK in
theorem below_ctors {n m : Nat} (h : n ≤ m) : BelowK (ctors lic n) (ctors lic m) := by
  induction h with
  | refl => exact ⟨fun _ => .refl _, fun _ => .refl _, fun _ _ => .refl _, fun _ _ => .refl _⟩
  | step _ ih =>
    have h := below_succ lic (F := F)
    exact ⟨fun ts => (ih.add ts).trans ((h _).add ts), fun ts => (ih.mul ts).trans ((h _).mul ts), fun b e => (ih.pow b e).trans ((h _).pow b e),
      fun p t => (ih.visit p t).trans ((h _).visit p t)⟩

end Wf.Sym.Stack
