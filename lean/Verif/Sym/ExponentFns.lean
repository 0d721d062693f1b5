import Verif.Sym.ExponentLemmas
import Verif.Sym.RebuildLemmas

/-!
# Functions and visitors that ask no sign question

The lemmas of `ExponentLemmas` for the functions and for making a node again from its new children.
-/

namespace Wf.Sym

variable {F : Type} [DecidableEq F] [FnSem F] {B : Expr F → Prop} {K K' : Ctors F}

local notation "O" => Over (ExpNode B)

theorem mapRes_len {α β : Type} {f : α → Res β} : ∀ {as : List α} {bs : List β}, mapRes f as = .ok bs → as.length = bs.length
  | [], bs, h => by cases h; rfl
  | a :: as, bs, h => by
    unfold mapRes at h
    cases ha : f a with
    | error e => simp [ha] at h
    | ok b =>
      cases hm : mapRes f as with
      | error e => simp [ha, hm] at h
      | ok cs =>
        simp only [ha, hm, Except.ok.injEq] at h
        subst h
        simp [mapRes_len hm]

/-- The second call gives the result of the first, and it is an expression of the same kind. -/
def Tr (B : Expr F → Prop) (x x' : Res (Expr F)) : Prop := ∀ r, x = .ok r → x' = .ok r ∧ Over (ExpNode B) r

theorem tr_ok {r : Expr F} (h : O r) : Tr B (.ok r) (.ok r) := fun s hs => by cases hs; exact ⟨rfl, h⟩
theorem tr_error {x : Err} {y : Res (Expr F)} : Tr B (.error x) y := fun s hs => by cases hs

theorem tr_match {x x' : Res (Expr F)} (hx : Tr B x x') {f f' : Expr F → Res (Expr F)} (hf : ∀ a, O a → Tr B (f a) (f' a)) :
    Tr B (match (generalizing := false) x with | .error e => .error e | .ok a => f a) (match (generalizing := false) x' with | .error e => .error e | .ok a => f' a) := by
  cases x with
  | error e => exact tr_error
  | ok a =>
    obtain ⟨h1, h2⟩ := hx a rfl
    rw [h1]
    exact hf a h2

theorem tr_ite {c : Prop} [Decidable c] {x x' y y' : Res (Expr F)} (hx : Tr B x x') (hy : Tr B y y') :
    Tr B (if c then x else y) (if c then x' else y') := by
  by_cases h : c
  · rw [if_pos h, if_pos h]; exact hx
  · rw [if_neg h, if_neg h]; exact hy

section
variable (hK : Agree B K K')
include hK

theorem tr_add {ts : List (Expr F)} (h : ∀ t ∈ ts, O t) : Tr B (K.add ts) (K'.add ts) := fun r hr => hK.add ts r h hr
theorem tr_mul {ts : List (Expr F)} (h : ∀ t ∈ ts, O t) : Tr B (K.mul ts) (K'.mul ts) := fun r hr => hK.mul ts r h hr
theorem tr_pow {b e : Expr F} (hb : O b) (he : O e) (h : TermArgs B b e) : Tr B (K.pow b e) (K'.pow b e) := fun r hr => hK.pow b e r hb he h hr
theorem tr_fromComplex (c : F × F) : Tr B (fromComplex K c) (fromComplex K' c) := fun _ hr => g_fromComplex hK hr
theorem tr_expFn {x : Expr F} (hx : O x) : Tr B (expFn K x) (expFn K' x) := fun _ hr => g_expFn hK hx hr

theorem tr_negE {x : Expr F} (hx : O x) : Tr B (negE K x) (negE K' x) := tr_mul hK (o2 (oInt _) hx)

theorem tr_divE {a b : Expr F} (ha : O a) (hb : O b) : Tr B (divE K a b) (divE K' a b) :=
  tr_match (tr_pow hK hb (oInt _) (Or.inl (Or.inl ⟨-1, rfl, by decide⟩))) fun _ hp => tr_mul hK (o2 ha hp)

theorem g_swapArg {x : Expr F} (hx : O x) {o : Option (Expr F)} (h : swapArg K x = .ok o) : swapArg K' x = .ok o ∧ ∀ y ∈ o, O y := by
  unfold swapArg at h ⊢
  by_cases h1 : isImag x = true
  · rw [if_pos h1] at h ⊢; cases h; exact ⟨rfl, oSome (oInt 1)⟩
  rw [if_neg h1] at h ⊢
  by_cases h2 : hasImag x = true
  · rw [if_pos h2] at h ⊢
    cases hd : divE K x .imag with
    | error e => rw [hd] at h; cases h
    | ok y =>
      obtain ⟨k1, k2⟩ := tr_divE hK hx oImag y hd
      rw [hd] at h
      cases h
      rw [k1]
      exact ⟨rfl, oSome k2⟩
  · rw [if_neg h2] at h ⊢; cases h; exact ⟨rfl, oNone⟩

/-- The swap of trigonometric and hyperbolic functions. -/
theorem tr_swap {x : Expr F} (hx : O x) {f f' : Expr F → Res (Expr F)} {g g' : Res (Expr F)} (hf : ∀ y, O y → Tr B (f y) (f' y)) (hg : Tr B g g') :
    Tr B (match (generalizing := false) swapArg K x with | .error e => .error e | .ok (some y) => f y | .ok none => g)
      (match (generalizing := false) swapArg K' x with | .error e => .error e | .ok (some y) => f' y | .ok none => g') := by
  cases hs : swapArg K x with
  | error e => exact tr_error
  | ok o =>
    obtain ⟨h1, h2⟩ := g_swapArg hK hx hs
    rw [h1]
    cases o with
    | none => exact hg
    | some y => exact hf y (h2 y rfl)

theorem tr_fnOfPi (f : BuiltIn) (r : RatC) : Tr B (fnOfPi K f r) (fnOfPi K' f r) := by
  unfold fnOfPi
  cases hc : (ratExpr r : Res (Expr F)) with
  | error e => exact tr_error
  | ok c =>
    refine tr_match (tr_mul hK (o2 (o_ratExpr hc).1 (oConst _))) fun m hm => tr_ok (oFn.2 ?_)
    simpa using hm

theorem tr_finishFn (f : BuiltIn) {x : Expr F} (hx : O x) : Tr B (finishFn K f x) (finishFn K' f x) := by
  unfold finishFn
  cases complexCast x with
  | some c => exact tr_fromComplex hK _
  | none => exact tr_ite (tr_ok oUndef) (tr_ok (oFn.2 (by simpa using hx)))

theorem tr_finishHyp (f g : BuiltIn) {x : Expr F} (hx : O x) : Tr B (finishHyp K f g x) (finishHyp K' f g x) := by
  have hn : O (.fn f [x]) := oFn.2 (by simpa using hx)
  unfold finishHyp
  cases complexCast x with
  | some c => exact tr_fromComplex hK _
  | none =>
    refine tr_ite (tr_ok oUndef) ?_
    split
    · exact tr_ite (tr_ok (oFn.1 hx _ (by simp))) (tr_ok hn)
    · exact tr_ok hn

theorem tr_piOver (n : Int) : Tr B (piOver K n) (piOver K' n) := tr_divE hK (oConst _) (oInt _)

theorem tr_timesCall {c : Expr F} {x x' : Res (Expr F)} (hc : O c) (hx : Tr B x x') : Tr B (timesCall K c x) (timesCall K' c x') :=
  tr_match hx fun _ hy => tr_mul hK (o2 hc hy)

theorem tr_callNeg {R R' : BuiltIn → Expr F → Res (Expr F)} (hR : ∀ f x, O x → Tr B (R f x) (R' f x)) {f : BuiltIn} {x : Expr F} (hx : O x) :
    Tr B (callNeg K R f x) (callNeg K' R' f x) := tr_match (tr_negE hK hx) fun _ hy => hR _ _ hy

theorem tr_cosPi (q : RatC) : Tr B (cosPi K q) (cosPi K' q) := by
  unfold cosPi
  cases modPi q with
  | error e => exact tr_error
  | ok r => exact tr_ite (tr_ok (oInt _)) (tr_ite (tr_ok (oInt _)) (tr_ite (tr_ok (oInt _)) (tr_fnOfPi hK _ _)))

theorem tr_sinPi (q : RatC) : Tr B (sinPi K q) (sinPi K' q) := by
  unfold sinPi
  cases modPi q with
  | error e => exact tr_error
  | ok r => exact tr_ite (tr_ok (oInt _)) (tr_ite (tr_ok (oInt _)) (tr_ite (tr_ok (oInt _)) (tr_fnOfPi hK _ _)))

theorem tr_tanPi (q : RatC) : Tr B (tanPi K q) (tanPi K' q) := by
  unfold tanPi
  cases modPi q with
  | error e => exact tr_error
  | ok r1 =>
    change Tr B (match tanRange r1 with | .error e => _ | .ok r => _) (match tanRange r1 with | .error e => _ | .ok r => _)
    cases tanRange r1 with
    | error e => exact tr_error
    | ok r => exact tr_ite (tr_ok (oInt _)) (tr_ite (tr_ok oZoo) (tr_fnOfPi hK _ _))

theorem tr_pure {x : Res (Expr F)} (h : ∀ r, x = .ok r → O r) : Tr B x x := fun r hr => ⟨hr, h r hr⟩

theorem tr_fnStep {R R' : BuiltIn → Expr F → Res (Expr F)} (hR : ∀ f x, O x → Tr B (R f x) (R' f x)) (f : BuiltIn) {x : Expr F} (hx : O x) :
    Tr B (fnStep K R f x) (fnStep K' R' f x) := by
  have hneg : ∀ f, Tr B (timesCall K (.int (-1)) (callNeg K R f x)) (timesCall K' (.int (-1)) (callNeg K' R' f x)) :=
    fun f => tr_timesCall hK (oInt _) (tr_callNeg hK hR hx)
  have hneg1 : ∀ n, Tr B (timesCall K (.int (-1)) (piOver K n)) (timesCall K' (.int (-1)) (piOver K' n)) :=
    fun n => tr_timesCall hK (oInt _) (tr_piOver hK n)
  cases f with
  | cos =>
    refine tr_swap hK hx (fun y hy => hR _ _ hy) ?_
    cases piCoeff x with
    | some r => exact tr_cosPi hK r
    | none => exact tr_ite (tr_ok (oInt _)) (tr_ite (tr_callNeg hK hR hx) (tr_finishFn hK _ hx))
  | sin =>
    refine tr_swap hK hx (fun y hy => tr_timesCall hK oImag (hR _ _ hy)) ?_
    cases piCoeff x with
    | some r => exact tr_sinPi hK r
    | none => exact tr_ite (tr_ok (oInt _)) (tr_ite (hneg _) (tr_finishFn hK _ hx))
  | tan =>
    refine tr_swap hK hx (fun y hy => tr_timesCall hK oImag (hR _ _ hy)) ?_
    cases piCoeff x with
    | some r => exact tr_tanPi hK r
    | none => exact tr_ite (tr_ok (oInt _)) (tr_ite (hneg _) (tr_finishFn hK _ hx))
  | arccos => exact tr_ite (tr_piOver hK _) (tr_ite (tr_ok (oInt _)) (tr_ite (tr_ok (oConst _)) (tr_finishFn hK _ hx)))
  | arcsin => exact tr_ite (tr_ok (oInt _)) (tr_ite (tr_piOver hK _) (tr_ite (hneg1 _) (tr_ite (hneg _) (tr_finishFn hK _ hx))))
  | arctan => exact tr_ite (tr_ok (oInt _)) (tr_ite (tr_piOver hK _) (tr_ite (hneg1 _) (tr_ite (hneg _) (tr_finishFn hK _ hx))))
  | cosh =>
    exact tr_swap hK hx (fun y hy => hR _ _ hy) (tr_ite (tr_ok (oInt _)) (tr_ite (tr_callNeg hK hR hx) (tr_finishHyp hK _ _ hx)))
  | sinh =>
    exact tr_swap hK hx (fun y hy => tr_timesCall hK oImag (hR _ _ hy)) (tr_ite (tr_ok (oInt _)) (tr_ite (hneg _) (tr_finishHyp hK _ _ hx)))
  | tanh =>
    exact tr_swap hK hx (fun y hy => tr_timesCall hK oImag (hR _ _ hy)) (tr_ite (tr_ok (oInt _)) (tr_ite (hneg _) (tr_finishHyp hK _ _ hx)))
  | arccosh =>
    exact tr_ite (tr_match (tr_mul hK (o2 oImag (oConst _))) fun _ hm => tr_divE hK hm (oInt _)) (tr_finishFn hK _ hx)
  | arcsinh => exact tr_ite (tr_ok (oInt _)) (tr_finishFn hK _ hx)
  | arctanh => exact tr_ite (tr_ok (oInt _)) (tr_finishFn hK _ hx)
  | exp => exact tr_expFn hK hx
  | log => exact tr_ite (tr_ok (oInt _)) (tr_ite (tr_ok (oInt _)) (tr_ite (tr_ok oUndef) (tr_finishFn hK _ hx)))
  | abs =>
    change Tr B (absFn K x) (absFn K' x)
    unfold absFn
    split
    · exact tr_ok hx
    · split
      · refine tr_pure hK fun r hr => ?_
        unfold absRat at hr
        split at hr
        · cases hr; exact hx
        · split at hr
          · cases hr
          · split at hr
            · cases hr
            · exact (o_ratExpr hr).1
      · split
        · exact tr_fromComplex hK _
        · split
          · exact tr_ok hx
          · exact tr_ite (tr_ok oUndef) (tr_ok (oFn.2 (by simpa using hx)))
  | signum =>
    change Tr B (signumFn x) (signumFn x)
    refine tr_pure hK fun r h => ?_
    unfold signumFn at h
    split at h
    · cases h; exact oInt _
    · cases h; exact oInt _
    · split at h
      · cases h; exact oFn.2 (by simpa using hx)
      · cases h; exact oInt _
    · cases h; exact oInt _
    · cases h; exact hx
    · cases h; exact hx
    · cases h; exact oFn.2 (by simpa using hx)
  | floor =>
    change Tr B (floorFn x) (floorFn x)
    refine tr_pure hK fun r h => ?_
    unfold floorFn at h
    split at h
    · cases h; exact oInt _
    · split at h
      · cases h
      · cases h; exact oInt _
    · split at h
      · cases h; exact oFn.2 (by simpa using hx)
      · split at h
        · cases h
        · cases h; exact oInt _
    · cases h; exact hx
    · cases h; exact oInt _
    · cases h; exact hx
    · cases h; exact hx
    · cases h; exact oFn.2 (by simpa using hx)
  | arctan2 => exact tr_error

theorem tr_fns : ∀ n f {x : Expr F}, O x → Tr B (fns K n f x) (fns K' n f x)
  | 0, _, _, _ => tr_error
  | n + 1, f, _, hx => tr_fnStep hK (fun f _ hy => tr_fns n f hy) f hx

theorem tr_quadrant (a b : Bool) : Tr B (quadrant K a b) (quadrant K' a b) := by
  have h4 : ∀ n, Tr B (match K.mul [.int n, .const .pi] with | .error e => .error e | .ok m => divE K m (.int 4))
      (match K'.mul [.int n, .const .pi] with | .error e => .error e | .ok m => divE K' m (.int 4)) :=
    fun n => tr_match (tr_mul hK (o2 (oInt _) (oConst _))) fun _ hm => tr_divE hK hm (oInt _)
  cases a <;> cases b
  · exact tr_piOver hK 4
  · exact h4 3
  · exact h4 (-1)
  · exact h4 (-3)

theorem g_some {x x' : Res (Expr F)} (h : Tr B x x') {o : Option (Expr F)}
    (ho : (match (generalizing := false) x with | .error e => .error e | .ok r => .ok (some r) : Res (Option (Expr F))) = .ok o) :
    (match (generalizing := false) x' with | .error e => .error e | .ok r => .ok (some r) : Res (Option (Expr F))) = .ok o ∧ ∀ r ∈ o, O r := by
  cases x with
  | error e => cases ho
  | ok r =>
    cases ho
    obtain ⟨h1, h2⟩ := h r rfl
    rw [h1]
    exact ⟨rfl, oSome h2⟩

theorem g_atan2Int (y x : Int) {o : Option (Expr F)} (h : atan2Int K y x = .ok o) : atan2Int K' y x = .ok o ∧ ∀ r ∈ o, O r := by
  unfold atan2Int at h ⊢
  by_cases h1 : y = 0 ∧ x = 1
  · rw [if_pos h1] at h ⊢; cases h; exact ⟨rfl, oSome (oInt 0)⟩
  rw [if_neg h1] at h ⊢
  by_cases h2 : y = 1 ∧ x = 0
  · rw [if_pos h2] at h ⊢; exact g_some hK (tr_piOver hK 2) h
  rw [if_neg h2] at h ⊢
  by_cases h3 : y = 0 ∧ x = -1
  · rw [if_pos h3] at h ⊢; cases h; exact ⟨rfl, oSome (oConst _)⟩
  rw [if_neg h3] at h ⊢
  by_cases h4 : y = -1 ∧ x = 0
  · rw [if_pos h4] at h ⊢; exact g_some hK (tr_timesCall hK (oInt _) (tr_piOver hK 2)) h
  rw [if_neg h4] at h ⊢
  cases ha : cabs y with
  | error e => rw [ha] at h; cases h
  | ok a =>
    cases hb : cabs x with
    | error e => rw [ha, hb] at h; cases h
    | ok b =>
      simp only [ha, hb] at h ⊢
      by_cases h5 : a = b ∧ x ≠ 0
      · rw [if_pos h5] at h ⊢; exact g_some hK (tr_quadrant hK _ _) h
      · rw [if_neg h5] at h ⊢; cases h; exact ⟨rfl, oNone⟩

theorem tr_atan2Fn {y x : Expr F} (hy : O y) (hx : O x) : Tr B (atan2Fn K y x) (atan2Fn K' y x) := by
  intro r h
  unfold atan2Fn at h ⊢
  cases hs : atan2Simplify K y x with
  | error e => rw [hs] at h; cases h
  | ok o =>
    have : atan2Simplify K' y x = .ok o ∧ ∀ r ∈ o, O r := by
      unfold atan2Simplify at hs ⊢
      by_cases h1 : (isZoo y || isZoo x || isUndef y || isUndef x) = true
      · rw [if_pos h1] at hs ⊢; cases hs; exact ⟨rfl, oSome oUndef⟩
      rw [if_neg h1] at hs ⊢
      split at hs
      · cases hs; exact ⟨rfl, oSome (o_floatExpr _)⟩
      · exact g_atan2Int hK _ _ hs
      · cases hs; exact ⟨rfl, oNone⟩
    rw [this.1]
    rw [hs] at h
    cases o with
    | none => cases h; exact ⟨rfl, oFn.2 (o2 hy hx)⟩
    | some z => cases h; exact ⟨rfl, this.2 _ rfl⟩
end

/-! ## Other nodes -/

theorem o_relCreate {op : RelOp} {a b r : Expr F} (ha : O a) (hb : O b) (h : relCreate op a b = .ok r) : O r := by
  unfold relCreate at h
  split at h
  · cases h
  · split at h
    · cases h
    · cases h; exact oLeaf (by simp)
    · unfold relNode at h
      split at h
      · split at h
        · cases h
        · cases h; exact (oNode (by simp)).2 (o2 ha hb)
        · cases h; exact (oNode (by simp)).2 (o2 hb ha)
      · cases h; exact (oNode (by simp)).2 (o2 ha hb)

theorem o_condCreate {c a b : Expr F} (hc : O c) (ha : O a) (hb : O b) : O (condCreate c a b) := by
  unfold condCreate
  split_ifs
  · exact ha
  · exact hb
  · exact ha
  · exact (oNode (by simp)).2 (by simpa using ⟨hc, ha, hb⟩)

theorem o_iversonFn {c : Expr F} (hc : O c) : O (iversonFn c) := by
  unfold iversonFn
  split
  · exact oInt 1
  · exact oInt 0
  · exact (oNode (by simp)).2 (by simpa using hc)

theorem o_unevalCreate {x : Expr F} (hx : O x) : O (unevalCreate x) := by
  unfold unevalCreate
  split
  · exact hx
  · exact (oNode (by simp)).2 (by simpa using hx)

theorem o_stopCreate {x : Expr F} (hx : O x) : O (stopCreate x) := by
  unfold stopCreate
  split
  · exact hx
  · exact (oNode (by simp)).2 (by simpa using hx)

theorem o_elemCreate {c r : Expr F} {i : Nat} (hc : O c) (h : elemCreate c i = .ok r) : O r := by
  unfold elemCreate at h
  split at h
  · split at h
    · rename_i a ha
      cases h
      exact (oNode (by simp)).1 hc _ (List.mem_of_getElem? ha)
    · cases h
  · cases h; exact (oNode (by simp)).2 (by simpa using hc)

theorem o_derivCreate {f x r : Expr F} {n : Nat} (hf : O f) (hx : O x) (h : derivCreate f x n = .ok r) : O r := by
  have hn : ∀ r, derivCreate.derivNode f x n = .ok r → O r := by
    intro r h
    unfold derivCreate.derivNode at h
    split at h
    · split at h
      · cases h
        exact (oNode (by simp)).2 (o2 ((oNode (by simp)).1 hf _ (by simp)) hx)
      · cases h; exact (oNode (by simp)).2 (o2 hf hx)
    · cases h; exact (oNode (by simp)).2 (o2 hf hx)
  unfold derivCreate at h
  split at h
  · cases h
  · split at h
    · exact hn _ h
    · cases h
    · exact hn _ h

theorem o_substCreate {e x y r : Expr F} (he : O e) (hx : O x) (hy : O y) (h : substCreate e x y = .ok r) : O r := by
  unfold substCreate at h
  split_ifs at h
  · cases h; exact he
  · cases h; exact he
  · cases h; exact (oNode (by simp)).2 (by simpa using ⟨he, hx, hy⟩)

section
variable (hK : Agree B K K')
include hK

/-- Making a node again from new children; the base and exponent of a power must be allowed. -/
theorem tr_rebuild {m : Nat} {h : Head F} {bs : List (Expr F)} (hb : ∀ b ∈ bs, O b) (hp : ∀ b e, h = .pow → bs = [b, e] → TermArgs B b e) :
    Tr B (rebuild K m h bs) (rebuild K' m h bs) := by
  unfold rebuild
  split
  · exact tr_add hK hb
  · exact tr_mul hK hb
  · exact tr_pow hK (hb _ (by simp)) (hb _ (by simp)) (hp _ _ rfl rfl)
  · exact tr_atan2Fn hK (hb _ (by simp)) (hb _ (by simp))
  · exact tr_fns hK _ _ (hb _ (by simp))
  · exact tr_ok ((oNode (by simp)).2 hb)
  · exact tr_ok (o_unevalCreate (hb _ (by simp)))
  · exact tr_ok (o_stopCreate (hb _ (by simp)))
  · exact tr_ok (o_iversonFn (hb _ (by simp)))
  · exact tr_ok (o_condCreate (hb _ (by simp)) (hb _ (by simp)) (hb _ (by simp)))
  · exact tr_pure hK fun r hr => o_relCreate (hb _ (by simp)) (hb _ (by simp)) hr
  · exact tr_pure hK fun r hr => o_elemCreate (hb _ (by simp)) hr
  · exact tr_pure hK fun r hr => o_derivCreate (hb _ (by simp)) (hb _ (by simp)) hr
  · exact tr_pure hK fun r hr => o_substCreate (hb _ (by simp)) (hb _ (by simp)) (hb _ (by simp)) hr
  · exact tr_ok ((oNode (by simp)).2 hb)
  · exact tr_ok ((oNode (by simp)).2 hb)
  · exact tr_ok ((oNode (by simp)).2 hb)
  · exact tr_error

omit hK in
theorem tr_mapCond {R R' : Expr F → Res (Expr F)} {c a b : Expr F} (hR : ∀ x ∈ [c, a, b], Tr B (R x) (R' x)) : Tr B (mapCond R c a b) (mapCond R' c a b) :=
  tr_match (hR c (by simp)) fun _ hc => tr_ite (hR a (by simp)) (tr_ite (hR b (by simp))
    (tr_match (hR a (by simp)) fun _ ha => tr_match (hR b (by simp)) fun _ hb => tr_ok (o_condCreate hc ha hb)))

/-- Visiting the children and making the node again; the new base and exponent of a power must be allowed. -/
theorem tr_mapChildren {m : Nat} {R R' : Expr F → Res (Expr F)} {h : Head F} {as : List (Expr F)} (hR : ∀ x ∈ as, Tr B (R x) (R' x))
    (hp : ∀ b e b' e', h = .pow → as = [b, e] → R b = .ok b' → R e = .ok e' → O b' → O e' → TermArgs B b' e') :
    Tr B (mapChildren K m R (.node h as)) (mapChildren K' m R' (.node h as)) := by
  by_cases hc : ∃ c a b, Expr.node h as = Expr.cond c a b
  · obtain ⟨c, a, b, he⟩ := hc
    cases he
    exact tr_mapCond hR
  · rw [mapChildren_node _ _ _ _ _ fun c a b he => hc ⟨c, a, b, he⟩, mapChildren_node _ _ _ _ _ fun c a b he => hc ⟨c, a, b, he⟩]
    cases hm : mapRes R as with
    | error e => exact tr_error
    | ok bs =>
      obtain ⟨h1, h2⟩ := g_mapRes (B := B) (f' := R') hm fun a ha b hb => hR a ha b hb
      rw [h1]
      refine tr_rebuild hK h2 fun b' e' hh hbs => ?_
      subst hh hbs
      rcases as with _ | ⟨b, _ | ⟨e, _ | ⟨x, as⟩⟩⟩
      · cases hm
      · unfold mapRes at hm
        cases hb : R b with
        | error x => simp [hb] at hm
        | ok y => simp [hb, mapRes] at hm
      · unfold mapRes mapRes mapRes at hm
        cases hb : R b with
        | error x => simp [hb] at hm
        | ok y =>
          cases he : R e with
          | error x => simp [hb, he] at hm
          | ok z =>
            simp only [hb, he, Except.ok.injEq, List.cons.injEq, and_true] at hm
            obtain ⟨rfl, rfl⟩ := hm
            exact hp b e _ _ rfl rfl hb he (h2 _ (by simp)) (h2 _ (by simp))
      · exfalso
        have := Nat.le_of_eq (mapRes_len hm)
        simp at this
end

end Wf.Sym
