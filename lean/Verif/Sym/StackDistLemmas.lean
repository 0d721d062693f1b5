import Verif.Sym.StackSubsLemmas
import Verif.Sym.DistributeModel

/-! # `distribute` and `collect` with more stack -/

namespace Wf.Sym.Stack

variable {F : Type} [FnOps F] [DecidableEq F]

/-- Go on if the step returns. -/
local macro "via " h:term : tactic => `(tactic| (have hb := $h; rcases hb with hx | hx <;> rw [hx] <;> (try exact Or.inl rfl) <;> split <;> (try exact Below.refl _)))

variable {K K' : Ctors F} (hK : BelowK K K') {R R' : Expr F → Res (Expr F)} (hR : BelowV R R') {m m' : Nat} (hm : m ≤ m')

theorem below_map {α β : Type} {x y : Res α} (f : α → β) (h : Below x y) : Below (x.map f) (y.map f) := by
  rcases h with h | h
  · exact .inl (by rw [h]; rfl)
  · exact .inr (by rw [h])

section
include hK hR

theorem below_distTerm (xy : Expr F × Expr F) : Below (distTerm K R xy) (distTerm K' R' xy) := by
  unfold distTerm
  via hK.mul [xy.1, xy.2]
  split
  · exact hR _
  · exact .refl _

theorem below_distTwo (a b : Expr F) : Below (distTwo K R a b) (distTwo K' R' a b) := by
  unfold distTwo
  via below_mapRes (below_distTerm hK hR) ((termsOf a).flatMap fun x => (termsOf b).map fun y => (x, y))
  exact hK.add _

theorem below_distMany : ∀ as : List (Expr F), Below (distMany K R as) (distMany K' R' as)
  | [] => .refl _
  | [_] => .refl _
  | a :: b :: as => by
    unfold distMany
    via below_distMany (b :: as)
    exact below_distTwo hK hR _ _

theorem below_distBit (odd : Bool) (result base : Expr F) : Below (distBit K R odd result base) (distBit K' R' odd result base) := by
  unfold distBit
  split
  · exact below_distTwo hK hR _ _
  · exact .refl _

theorem below_distLoop : ∀ (fuel k : Nat) (result base : Expr F), Below (distLoop K R fuel k result base) (distLoop K' R' fuel k result base)
  | 0, _, _, _ => .refl _
  | fuel + 1, k, result, base => by
    unfold distLoop
    via below_distBit hK hR (k % 2 == 1) result base
    split
    · exact .refl _
    · via below_distTwo hK hR base base
      exact below_distLoop fuel _ _ _

theorem below_distPower (base : Expr F) (k : Nat) : Below (distPower K R base k) (distPower K' R' base k) := by
  unfold distPower
  split
  · exact .refl _
  · exact below_distLoop hK hR _ _ _ _

omit hR in
theorem below_distSign (n : Int) (d : Expr F) : Below (distSign K n d) (distSign K' n d) := by
  unfold distSign
  split
  · exact .refl _
  · exact hK.pow _ _

theorem below_distPowSum (b e : Expr F) : Below (distPowSum K R b e) (distPowSum K' R' b e) := by
  unfold distPowSum
  split
  · split
    · exact .refl _
    · next k _ =>
      via below_distPower hK hR b k.toNat
      exact below_map _ (below_distSign hK _ _)
  · split
    · split
      · exact .refl _
      · next k _ =>
        split
        · via hK.pow b (.rat ⟨1, 2⟩)
          next s _ =>
          via below_distPower hK hR s k.toNat
          exact below_map _ (below_distSign hK _ _)
        · exact .refl _
    · exact .refl _
  · exact .refl _

theorem below_distPow (b e : Expr F) : Below (distPow K R b e) (distPow K' R' b e) := by
  unfold distPow
  split
  · via below_distPowSum hK hR b e
    exact hK.pow _ _
  · exact hK.pow _ _

include hm in
theorem below_distBody (e : Expr F) : Below (distBody K m R e) (distBody K' m' R' e) := by
  unfold distBody
  split
  · next ts =>
    via below_mapRes hR ts
    exact below_distMany hK hR _
  · next b x =>
    via hR b
    via hR x
    exact below_distPow hK hR _ _
  · exact below_descend hK hR hm _

end

include hK hm in
theorem below_distribute {n n' : Nat} (hn : n ≤ n') (e : Expr F) : Below (distribute K m n e) (distribute K' m' n' e) :=
  below_visitor (fun _ _ hR e => below_distBody hK hR hm e) hn e

include hK

theorem below_collectTerm (t child : Expr F) : Below (collectTerm K t child) (collectTerm K' t child) := by
  unfold collectTerm
  split
  · split
    · exact .refl _
    · next rest _ => via hK.mul rest
  · exact .refl _

theorem below_collectSplit (t : Expr F) : ∀ (cs : List (Expr F)) (ps : Powers F), Below (collectSplit K t ps cs) (collectSplit K' t ps cs)
  | [], _ => .refl _
  | c :: cs, ps => by
    unfold collectSplit
    via below_collectTerm hK t c
    · via below_collectSplit t cs ps
    · exact below_collectSplit t cs _

theorem below_collectPower1 {f f' : List (Expr F) → Res (Expr F)} (hf : ∀ l, Below (f l) (f' l)) (t : Expr F) (p : Expr F × List (Expr F)) :
    Below (collectPower1 K f t p) (collectPower1 K' f' t p) := by
  unfold collectPower1
  via hK.pow t p.1
  via hf p.2
  exact hK.mul _

omit hK in
theorem below_collectRest {f f' : List (Expr F) → Res (Expr F)} (hf : ∀ l, Below (f l) (f' l)) (more : Bool) (rest : List (Expr F)) :
    Below (collectRest f more rest) (collectRest f' more rest) := by
  unfold collectRest
  split
  · via hf rest
  · exact .refl _

theorem below_collectTerms : ∀ ts cs : List (Expr F), Below (collectTerms K ts cs) (collectTerms K' ts cs)
  | [], cs => by unfold collectTerms; exact hK.add cs
  | t :: ts, cs => by
    unfold collectTerms
    via below_collectSplit hK t cs []
    next ps rest _ =>
    via below_collectRest (below_collectTerms ts) (!ts.isEmpty) rest
    via below_mapRes (below_collectPower1 hK (below_collectTerms ts) t) ps
    exact hK.add _

include hR hm in
theorem below_collectBody (ts : List (Expr F)) (e : Expr F) : Below (collectBody K m ts R e) (collectBody K' m' ts R' e) := by
  unfold collectBody
  split
  · next cs =>
    via below_mapRes hR cs
    exact below_collectTerms hK _ _
  · exact below_descend hK hR hm _

include hm in
theorem below_collectMany {n n' : Nat} (hn : n ≤ n') (e : Expr F) (ts : List (Expr F)) :
    Below (collectMany K m n e ts) (collectMany K' m' n' e ts) := by
  unfold collectMany
  split
  · exact .refl _
  split
  · exact .refl _
  · exact below_visitor (fun _ _ hR e => below_collectBody hK hR hm ts e) hn e

end Wf.Sym.Stack
