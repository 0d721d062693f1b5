import Verif.Sym.StackLemmas
import Verif.Sym.DerivativeModel

/-! # Functions and derivatives with more stack -/

namespace Wf.Sym.Stack

variable {F : Type} [FnOps F] [DecidableEq F]

/-- Go on if the step returns. -/
local macro "via " h:term : tactic => `(tactic| (have hb := $h; rcases hb with hx | hx <;> rw [hx] <;> (try exact Or.inl rfl) <;> split <;> (try exact Below.refl _)))

theorem below_andThen {α β : Type} {x y : Res α} {f g : α → Res β} (h : Below x y) (hf : ∀ a, Below (f a) (g a)) : Below (andThen x f) (andThen y g) := by
  rcases h with h | h <;> rw [h]
  · exact .inl rfl
  · cases y with
    | error e => exact .refl _
    | ok a => exact hf a

/-- Functions that lie below others. -/
def BelowR (R R' : BuiltIn → Expr F → Res (Expr F)) : Prop := ∀ f x, Below (R f x) (R' f x)

variable {K K' : Ctors F} (hK : BelowK K K') {R R' : BuiltIn → Expr F → Res (Expr F)} (hR : BelowR R R')
include hK

theorem below_negE (x : Expr F) : Below (negE K x) (negE K' x) := hK.mul _

theorem below_divE (a b : Expr F) : Below (divE K a b) (divE K' a b) := by
  unfold divE
  via hK.pow b (.int (-1))
  exact hK.mul _

theorem below_subE (a b : Expr F) : Below (subE K a b) (subE K' a b) := by
  unfold subE
  via hK.mul [.int (-1), b]
  exact hK.add _

theorem below_swapArg (x : Expr F) : Below (swapArg K x) (swapArg K' x) := by
  unfold swapArg
  split
  · exact .refl _
  split
  · via below_divE hK x .imag
  · exact .refl _

theorem below_fnOfPi (f : BuiltIn) (r : RatC) : Below (fnOfPi K f r) (fnOfPi K' f r) := by
  unfold fnOfPi
  split
  · exact .refl _
  · next c _ => via hK.mul [c, .const .pi]

theorem below_finishFn (f : BuiltIn) (x : Expr F) : Below (finishFn K f x) (finishFn K' f x) := by
  unfold finishFn
  split
  · exact below_fromComplex hK _
  · exact .refl _

theorem below_timesCall (c : Expr F) {r r' : Res (Expr F)} (h : Below r r') : Below (timesCall K c r) (timesCall K' c r') := by
  unfold timesCall
  via h
  exact hK.mul _

theorem below_piOver (n : Int) : Below (piOver K n) (piOver K' n) := below_divE hK _ _

theorem below_cosPi (q : RatC) : Below (cosPi K q) (cosPi K' q) := by
  unfold cosPi
  repeat' first | exact .refl _ | exact below_fnOfPi hK _ _ | split

theorem below_sinPi (q : RatC) : Below (sinPi K q) (sinPi K' q) := by
  unfold sinPi
  repeat' first | exact .refl _ | exact below_fnOfPi hK _ _ | split

theorem below_tanPi (q : RatC) : Below (tanPi K q) (tanPi K' q) := by
  unfold tanPi
  repeat' first | exact .refl _ | exact below_fnOfPi hK _ _ | split

theorem below_finishHyp (f inv : BuiltIn) (x : Expr F) : Below (finishHyp K f inv x) (finishHyp K' f inv x) := by
  unfold finishHyp
  split
  · exact below_fromComplex hK _
  · exact .refl _

include hR

theorem below_callNeg (f : BuiltIn) (x : Expr F) : Below (callNeg K R f x) (callNeg K' R' f x) := by
  unfold callNeg
  via below_negE hK x
  exact hR _ _

theorem below_cosFn (x : Expr F) : Below (cosFn K R x) (cosFn K' R' x) := by
  unfold cosFn
  via below_swapArg hK x
  · exact hR _ _
  · split
    · exact below_cosPi hK _
    · repeat' first | exact .refl _ | exact below_callNeg hK hR _ _ | exact below_finishFn hK _ _ | split

theorem below_sinFn (x : Expr F) : Below (sinFn K R x) (sinFn K' R' x) := by
  unfold sinFn
  via below_swapArg hK x
  · exact below_timesCall hK _ (hR _ _)
  · split
    · exact below_sinPi hK _
    · repeat' first | exact .refl _ | exact below_timesCall hK _ (below_callNeg hK hR _ _) | exact below_finishFn hK _ _ | split

theorem below_tanFn (x : Expr F) : Below (tanFn K R x) (tanFn K' R' x) := by
  unfold tanFn
  via below_swapArg hK x
  · exact below_timesCall hK _ (hR _ _)
  · split
    · exact below_tanPi hK _
    · repeat' first | exact .refl _ | exact below_timesCall hK _ (below_callNeg hK hR _ _) | exact below_finishFn hK _ _ | split

omit hR in
theorem below_acosFn (x : Expr F) : Below (acosFn K x) (acosFn K' x) := by
  unfold acosFn
  repeat' first | exact .refl _ | exact below_piOver hK _ | exact below_finishFn hK _ _ | split

theorem below_asinFn (x : Expr F) : Below (asinFn K R x) (asinFn K' R' x) := by
  unfold asinFn
  repeat' first | exact .refl _ | exact below_piOver hK _ | exact below_timesCall hK _ (below_piOver hK _)
                | exact below_timesCall hK _ (below_callNeg hK hR _ _) | exact below_finishFn hK _ _ | split

theorem below_atanFn (x : Expr F) : Below (atanFn K R x) (atanFn K' R' x) := by
  unfold atanFn
  repeat' first | exact .refl _ | exact below_piOver hK _ | exact below_timesCall hK _ (below_piOver hK _)
                | exact below_timesCall hK _ (below_callNeg hK hR _ _) | exact below_finishFn hK _ _ | split

theorem below_coshFn (x : Expr F) : Below (coshFn K R x) (coshFn K' R' x) := by
  unfold coshFn
  via below_swapArg hK x
  · exact hR _ _
  · repeat' first | exact .refl _ | exact below_callNeg hK hR _ _ | exact below_finishHyp hK _ _ _ | split

theorem below_sinhFn (x : Expr F) : Below (sinhFn K R x) (sinhFn K' R' x) := by
  unfold sinhFn
  via below_swapArg hK x
  · exact below_timesCall hK _ (hR _ _)
  · repeat' first | exact .refl _ | exact below_timesCall hK _ (below_callNeg hK hR _ _) | exact below_finishHyp hK _ _ _ | split

theorem below_tanhFn (x : Expr F) : Below (tanhFn K R x) (tanhFn K' R' x) := by
  unfold tanhFn
  via below_swapArg hK x
  · exact below_timesCall hK _ (hR _ _)
  · repeat' first | exact .refl _ | exact below_timesCall hK _ (below_callNeg hK hR _ _) | exact below_finishHyp hK _ _ _ | split

omit hR in
theorem below_acoshFn (x : Expr F) : Below (acoshFn K x) (acoshFn K' x) := by
  unfold acoshFn
  split
  · via hK.mul [.imag, .const .pi]
    exact below_divE hK _ _
  · exact below_finishFn hK _ _

omit hR in
theorem below_asinhFn (x : Expr F) : Below (asinhFn K x) (asinhFn K' x) := by
  unfold asinhFn
  repeat' first | exact .refl _ | exact below_finishFn hK _ _ | split

omit hR in
theorem below_atanhFn (x : Expr F) : Below (atanhFn K x) (atanhFn K' x) := by
  unfold atanhFn
  repeat' first | exact .refl _ | exact below_finishFn hK _ _ | split

omit hR in
theorem below_logFn (x : Expr F) : Below (logFn K x) (logFn K' x) := by
  unfold logFn
  repeat' first | exact .refl _ | exact below_finishFn hK _ _ | split

omit hR in
theorem below_absFn (x : Expr F) : Below (absFn K x) (absFn K' x) := by
  unfold absFn
  repeat' first | exact .refl _ | exact below_fromComplex hK _ | split

theorem below_fnStep : BelowR (fnStep K R) (fnStep K' R') := by
  intro f x
  cases f
  case cos => exact below_cosFn hK hR x
  case sin => exact below_sinFn hK hR x
  case tan => exact below_tanFn hK hR x
  case arccos => exact below_acosFn hK x
  case arcsin => exact below_asinFn hK hR x
  case arctan => exact below_atanFn hK hR x
  case cosh => exact below_coshFn hK hR x
  case sinh => exact below_sinhFn hK hR x
  case tanh => exact below_tanhFn hK hR x
  case arccosh => exact below_acoshFn hK x
  case arcsinh => exact below_asinhFn hK x
  case arctanh => exact below_atanhFn hK x
  case exp => exact below_expFn hK x
  case log => exact below_logFn hK x
  case abs => exact below_absFn hK x
  all_goals exact .refl _

omit hR
theorem below_fns : ∀ {n m : Nat}, n ≤ m → BelowR (fns K n) (fns K' m)
  | 0, _, _ => fun _ _ => .inl rfl
  | n + 1, m + 1, h => below_fnStep hK (below_fns (Nat.le_of_succ_le_succ h))
  | _ + 1, 0, h => absurd h (by omega)

/-! ## `atan2` -/

theorem below_quadrant (a b : Bool) : Below (quadrant K a b) (quadrant K' a b) := by
  cases a <;> cases b
  · exact below_piOver hK 4
  · simp only [quadrant]
    via hK.mul [.int 3, .const .pi]
    exact below_divE hK _ _
  · simp only [quadrant]
    via below_negE hK (.const .pi)
    exact below_divE hK _ _
  · simp only [quadrant]
    via hK.mul [.int (-3), .const .pi]
    exact below_divE hK _ _

theorem below_atan2Int (y x : Int) : Below (atan2Int K y x) (atan2Int K' y x) := by
  unfold atan2Int
  split
  · exact .refl _
  split
  · via below_piOver hK 2
  split
  · exact .refl _
  split
  · via below_timesCall hK (.int (-1)) (below_piOver hK 2)
  split
  · exact .refl _
  split
  · exact .refl _
  split
  · via below_quadrant hK (decide (y < 0)) (decide (x < 0))
  · exact .refl _

theorem below_atan2Simplify (y x : Expr F) : Below (atan2Simplify K y x) (atan2Simplify K' y x) := by
  unfold atan2Simplify
  repeat' first | exact .refl _ | exact below_atan2Int hK _ _ | split

theorem below_atan2Fn (y x : Expr F) : Below (atan2Fn K y x) (atan2Fn K' y x) := by
  unfold atan2Fn
  via below_atan2Simplify hK y x

/-! ## Derivatives -/

theorem below_oneHalf : Below (oneHalf K) (oneHalf K') := below_divE hK _ _
theorem below_negOneHalf : Below (negOneHalf K) (negOneHalf K') := below_andThen (below_negE hK _) fun _ => below_divE hK _ _

theorem below_productTerms : ∀ pre ts ds, Below (productTerms K pre ts ds) (productTerms K' pre ts ds)
  | pre, t :: ts, d :: ds => by
    unfold productTerms
    split
    · exact below_productTerms _ ts ds
    · exact below_andThen (hK.mul _) fun _ => below_andThen (below_productTerms _ ts ds) fun _ => .refl _
  | _, [], _ => by unfold productTerms; exact .refl _
  | _, _ :: _, [] => by unfold productTerms; exact .refl _

theorem below_diffProduct (ts ds : List (Expr F)) : Below (diffProduct K ts ds) (diffProduct K' ts ds) :=
  below_andThen (below_productTerms hK _ _ _) fun ps => by
    cases ps with
    | nil => exact .refl _
    | cons a as => exact hK.add _

theorem below_oneMinusSquare (a : Expr F) : Below (oneMinusSquare K a) (oneMinusSquare K' a) := below_andThen (hK.pow _ _) fun _ => below_subE hK _ _
theorem below_squarePlusOne (a : Expr F) : Below (squarePlusOne K a) (squarePlusOne K' a) := below_andThen (hK.pow _ _) fun _ => hK.add _

theorem below_diffAtan2 (y x dy dx : Expr F) : Below (diffAtan2 K y x dy dx) (diffAtan2 K' y x dy dx) :=
  below_andThen (hK.mul _) fun _ => below_andThen (hK.mul _) fun _ => below_andThen (hK.add _) fun _ => below_andThen (hK.mul _) fun _ =>
  below_andThen (below_negE hK _) fun _ => below_andThen (below_divE hK _ _) fun _ => below_andThen (hK.mul _) fun _ =>
  below_andThen (below_divE hK _ _) fun _ => hK.add _

theorem below_diffPow {m m' : Nat} (hm : m ≤ m') (b e db de : Expr F) : Below (diffPow K m b e db de) (diffPow K' m' b e db de) := by
  unfold diffPow
  split
  · exact .refl _
  · exact below_andThen (below_subE hK _ _) fun _ => below_andThen (hK.pow _ _) fun _ => below_andThen (hK.mul _) fun _ =>
      below_andThen (hK.mul _) fun _ => below_andThen (hK.pow _ _) fun _ => below_andThen (below_fns hK hm _ _) fun _ =>
      below_andThen (hK.mul _) fun _ => below_andThen (hK.mul _) fun _ => hK.add _

omit hK

/-- The visitor with more stack. -/
structure BelowD (D D' : DiffCfg F) : Prop where
  K : BelowK D.K D'.K
  m : D.m ≤ D'.m
  arg : D.arg = D'.arg
  beh : D.beh = D'.beh
  other : ∀ e ds, Below (D.other e ds) (D'.other e ds)

variable {D D' : DiffCfg F} (hD : BelowD D D')
include hD

theorem below_diffKink {e e' : Res (Expr F)} (h : Below e e') : Below (diffKink D e) (diffKink D' e') := by
  unfold diffKink
  rw [hD.beh, hD.arg]
  split
  · exact below_andThen h fun _ => .refl _
  · exact .refl _

theorem below_diffFn1 (func : Expr F) (f : BuiltIn) (a d : Expr F) : Below (diffFn1 D func f a d) (diffFn1 D' func f a d) := by
  have hf := below_fns hD.K hD.m
  cases f
  case cos => exact below_andThen (hf _ _) fun _ => below_andThen (below_negE hD.K _) fun _ => hD.K.mul _
  case sin => exact below_andThen (hf _ _) fun _ => hD.K.mul _
  case tan => exact below_andThen (hf _ _) fun _ => below_andThen (hD.K.pow _ _) fun _ => hD.K.mul _
  case arccos =>
    exact below_andThen (below_oneMinusSquare hD.K _) fun _ => below_andThen (below_negOneHalf hD.K) fun _ => below_andThen (hD.K.pow _ _) fun _ =>
      below_andThen (below_negE hD.K _) fun _ => hD.K.mul _
  case arcsin => exact below_andThen (below_oneMinusSquare hD.K _) fun _ => below_andThen (below_negOneHalf hD.K) fun _ => below_andThen (hD.K.pow _ _) fun _ => hD.K.mul _
  case arctan => exact below_andThen (below_squarePlusOne hD.K _) fun _ => below_divE hD.K _ _
  case cosh => exact below_andThen (hf _ _) fun _ => hD.K.mul _
  case sinh => exact below_andThen (hf _ _) fun _ => hD.K.mul _
  case tanh => exact below_andThen (below_oneMinusSquare hD.K _) fun _ => hD.K.mul _
  case arccosh =>
    exact below_andThen (below_oneHalf hD.K) fun _ => below_andThen (hD.K.add _) fun _ => below_andThen (hD.K.pow _ _) fun _ =>
      below_andThen (below_subE hD.K _ _) fun _ => below_andThen (hD.K.pow _ _) fun _ => below_andThen (hD.K.mul _) fun _ =>
      below_andThen (hD.K.pow _ _) fun _ => hD.K.mul _
  case arcsinh => exact below_andThen (below_squarePlusOne hD.K _) fun _ => below_andThen (below_negOneHalf hD.K) fun _ => below_andThen (hD.K.pow _ _) fun _ => hD.K.mul _
  case arctanh => exact below_andThen (below_oneMinusSquare hD.K _) fun _ => below_andThen (hD.K.pow _ _) fun _ => hD.K.mul _
  case exp => exact hD.K.mul _
  case log => exact below_andThen (hD.K.pow _ _) fun _ => hD.K.mul _
  case abs => exact below_andThen (hf _ _) fun _ => below_andThen (below_divE hD.K _ _) fun _ => hD.K.mul _
  case signum => exact below_diffKink hD (hf _ _)
  case floor => exact below_diffKink hD (hf _ _)
  case arctan2 => exact .refl _

theorem below_diffFn (func : Expr F) (f : BuiltIn) (as ds : List (Expr F)) : Below (diffFn D func f as ds) (diffFn D' func f as ds) := by
  unfold diffFn
  repeat' first | exact .refl _ | exact below_diffFn1 hD _ _ _ _ | exact below_diffAtan2 hD.K _ _ _ _ | split

theorem below_diffDeriv (e f : Expr F) : Below (diffDeriv D e f) (diffDeriv D' e f) := by
  unfold diffDeriv
  rw [hD.arg]
  exact .refl _

theorem below_diffNode (h : Head F) (as : List (Expr F)) {k k' b b' : Unit → Res (List (Expr F))} (hk : Below (k ()) (k' ())) (hb : Below (b ()) (b' ())) :
    Below (diffNode D h as k b) (diffNode D' h as k' b') := by
  cases h
  case pow =>
    simp only [diffNode]
    refine below_andThen hk fun ds => ?_
    split
    · exact below_diffPow hD.K hD.m _ _ _ _
    · exact .refl _
  all_goals first
    | exact .refl _
    | (simp only [diffNode, hD.arg]; exact .refl _)
    | exact below_andThen hk fun _ => hD.K.add _
    | exact below_andThen hk fun _ => below_diffProduct hD.K _ _
    | exact below_andThen hk fun _ => below_diffFn hD _ _ _ _
    | exact below_andThen hk fun _ => hD.other _ _
    | (simp only [diffNode]; exact below_andThen hb fun ds => .refl _)
    | (simp only [diffNode]; exact below_andThen hk fun ds => .refl _)
    | exact below_diffKink hD (.refl _)
    | (simp only [diffNode, hD.arg]; split <;> first | exact .refl _ | exact below_diffKink hD (.refl _))
    | (simp only [diffNode]; split <;> first | exact .refl _ | exact below_diffDeriv hD _ _)

mutual
theorem below_diffE : ∀ e, Below (diffE D e) (diffE D' e)
  | .node h as => by
    simp only [diffE]
    exact below_diffNode hD h as (below_diffs as) (below_diffTail as)
theorem below_diffs : ∀ es, Below (diffs D es) (diffs D' es)
  | [] => by simp only [diffs]; exact .refl _
  | a :: as => by
    simp only [diffs]
    exact below_andThen (below_diffE a) fun _ => below_andThen (below_diffs as) fun _ => .refl _
theorem below_diffTail : ∀ es, Below (diffTail D es) (diffTail D' es)
  | [] => by simp only [diffTail]; exact .refl _
  | _ :: as => by simp only [diffTail]; exact below_diffs as
end

theorem below_diffTimes : ∀ n e, Below (diffTimes D n e) (diffTimes D' n e)
  | 0, _ => .refl _
  | n + 1, e => below_andThen (below_diffE hD e) fun _ => below_diffTimes n _

theorem below_diff (e : Expr F) (n : Int) : Below (diff D e n) (diff D' e n) := by
  unfold diff
  rw [hD.arg]
  split
  · exact .refl _
  split
  · exact below_diffTimes hD _ _
  · exact .refl _

end Wf.Sym.Stack
