import Verif.Sym.ExponentFns
import Verif.Sym.DerivativeModel

/-!
# Differentiation that asks no sign question

The derivatives of the inverse functions `asin`, `acos`, `asinh` and `acosh` contain square roots of expressions that are made on the way; the
others contain no new roots.
-/

namespace Wf.Sym

variable {F : Type} [DecidableEq F] [FnSem F] {B : Expr F → Prop} {K K' : Ctors F}

local notation "O" => Over (ExpNode B)

theorem tr_then {x x' : Res (Expr F)} (hx : Tr B x x') {f f' : Expr F → Res (Expr F)} (hf : ∀ a, x = .ok a → O a → Tr B (f a) (f' a)) :
    Tr B (andThen x f) (andThen x' f') := by
  cases x with
  | error e => exact tr_error
  | ok a =>
    obtain ⟨h1, h2⟩ := hx a rfl
    rw [h1]
    exact hf a rfl h2

/-- The derivative of the function contains no square root. -/
def rootless : Head F → Bool
  | .fn .arccos | .fn .arcsin | .fn .arccosh | .fn .arcsinh => false
  | _ => true

section
variable (hK : Agree B K K')
include hK

theorem tr_powInt {b : Expr F} (hb : O b) (n : Int) (hn : InI64 n) : Tr B (K.pow b (.int n)) (K'.pow b (.int n)) :=
  tr_pow hK hb (oInt n) (Or.inl (Or.inl ⟨n, rfl, hn⟩))

theorem tr_subE {a b : Expr F} (ha : O a) (hb : O b) : Tr B (subE K a b) (subE K' a b) :=
  tr_match (tr_mul hK (o2 (oInt _) hb)) fun _ hm => tr_add hK (o2 ha hm)

theorem tr_oneMinusSquare {a : Expr F} (ha : O a) : Tr B (oneMinusSquare K a) (oneMinusSquare K' a) :=
  tr_then (tr_powInt hK ha 2 (by decide)) fun _ _ hs => tr_subE hK (oInt 1) hs

theorem tr_squarePlusOne {a : Expr F} (ha : O a) : Tr B (squarePlusOne K a) (squarePlusOne K' a) :=
  tr_then (tr_powInt hK ha 2 (by decide)) fun _ _ hs => tr_add hK (o2 hs (oInt 1))

/-- `TrAll` for any kind of power. -/
def TrL (B : Expr F → Prop) (x x' : Res (List (Expr F))) : Prop := ∀ r, x = .ok r → x' = .ok r ∧ ∀ t ∈ r, Over (ExpNode B) t

theorem trl_productTerms : ∀ (pre ts ds : List (Expr F)), (∀ t ∈ pre, O t) → (∀ t ∈ ts, O t) → (∀ t ∈ ds, O t) →
    TrL B (productTerms K pre ts ds) (productTerms K' pre ts ds)
  | pre, [], ds, _, _, _ => fun r h => by cases h; exact ⟨rfl, by simp⟩
  | pre, _ :: _, [], _, _, _ => fun r h => by cases h; exact ⟨rfl, by simp⟩
  | pre, t :: ts, d :: ds, hp, ht, hd => by
    have hts : ∀ x ∈ ts, O x := fun x hx => ht x (by simp [hx])
    have hds : ∀ x ∈ ds, O x := fun x hx => hd x (by simp [hx])
    have hpt : ∀ x ∈ pre ++ [t], O x := by
      intro x hx
      rcases List.mem_append.1 hx with hx | hx
      · exact hp x hx
      · rw [List.mem_singleton] at hx; subst hx; exact ht _ (by simp)
    have ih := trl_productTerms (pre ++ [t]) ts ds hpt hts hds
    intro r h
    unfold productTerms at h ⊢
    by_cases hz : isInt 0 d = true
    · rw [if_pos hz] at h ⊢
      exact ih r h
    · rw [if_neg hz] at h ⊢
      obtain ⟨p, h1, h2⟩ := andThen_ok h
      obtain ⟨ps, h3, h4⟩ := andThen_ok h2
      cases h4
      obtain ⟨h5, h6⟩ := tr_mul hK (ts := d :: (pre ++ ts)) (by
        intro x hx
        rcases List.mem_cons.1 hx with rfl | hx
        · exact hd _ (by simp)
        · rcases List.mem_append.1 hx with hx | hx
          · exact hp x hx
          · exact hts x hx) p h1
      obtain ⟨h7, h8⟩ := ih ps h3
      unfold andThen
      rw [h5]
      simp only [h7]
      refine ⟨trivial, fun x hx => ?_⟩
      rcases List.mem_cons.1 hx with rfl | hx
      · exact h6
      · exact h8 x hx

theorem tr_diffProduct {ts ds : List (Expr F)} (ht : ∀ t ∈ ts, O t) (hd : ∀ t ∈ ds, O t) : Tr B (diffProduct K ts ds) (diffProduct K' ts ds) := by
  intro r h
  obtain ⟨ps, h1, h2⟩ := andThen_ok h
  obtain ⟨h3, h4⟩ := trl_productTerms hK [] ts ds (by simp) ht hd ps h1
  unfold diffProduct andThen
  rw [h3]
  simp only
  split at h2
  · cases h2; exact ⟨rfl, oInt 0⟩
  · exact tr_add hK h4 r h2

theorem tr_diffPow (m : Nat) {b e db de : Expr F} (hb : O b) (he : O e) (hdb : O db) (hde : O de) (hp : PowArgs B b e) :
    Tr B (diffPow K m b e db de) (diffPow K' m b e db de) := by
  refine tr_ite (tr_ok (oInt 0)) ?_
  refine tr_then (tr_subE hK he (oInt 1)) fun e1 h1 o1 => ?_
  have hp1 : TermArgs B b e1 := by
    left
    unfold subE at h1
    cases hm : K.mul [.int (-1), .int 1] with
    | error x => simp [hm] at h1
    | ok k =>
      simp only [hm] at h1
      have hk := hK.mulInt _ _ _ ⟨-1, rfl, by decide⟩ ⟨1, rfl, by decide⟩ hm
      rcases hp with hp | ⟨q1, q2⟩
      · exact Or.inl (hK.addInt _ _ _ hp hk h1)
      · refine Or.inr ⟨q1, fun hn => hK.addRat _ _ _ (q2 hn) ?_ h1⟩
        obtain ⟨n, rfl, _⟩ := hk
        rfl
  refine tr_then (tr_pow hK hb o1 hp1) fun p _ op => tr_then (tr_mul hK (o2 he op)) fun q _ oq => tr_then (tr_mul hK (o2 oq hdb)) fun l _ ol => ?_
  refine tr_then (tr_pow hK hb he (Or.inl hp)) fun p' _ op' => tr_then (tr_fns hK m .log hb) fun g _ og => tr_then (tr_mul hK (o2 op' og)) fun q' _ oq' => ?_
  exact tr_then (tr_mul hK (o2 oq' hde)) fun r _ or => tr_add hK (o2 ol or)

theorem tr_diffAtan2 {y x dy dx : Expr F} (hy : O y) (hx : O x) (hdy : O dy) (hdx : O dx) : Tr B (diffAtan2 K y x dy dx) (diffAtan2 K' y x dy dx) :=
  tr_then (tr_mul hK (o2 hy hy)) fun _ _ oyy => tr_then (tr_mul hK (o2 hx hx)) fun _ _ oxx => tr_then (tr_add hK (o2 oyy oxx)) fun _ _ os =>
  tr_then (tr_mul hK (o2 hy hdx)) fun _ _ oa => tr_then (tr_negE hK oa) fun _ _ ona => tr_then (tr_divE hK ona os) fun _ _ op =>
  tr_then (tr_mul hK (o2 hx hdy)) fun _ _ ob => tr_then (tr_divE hK ob os) fun _ _ oq => tr_add hK (o2 op oq)
end

section
variable {D D' : DiffCfg F} (hK : Agree B D.K D'.K) (hD : D' = { D with K := D'.K }) (harg : Over (ExpNode B) D.arg)
  (ho : ∀ e ds r, D.other e ds = .ok r → Over (ExpNode B) r)
include hK hD harg

theorem tr_diffKink {x x' : Res (Expr F)} (hx : Tr B x x') : Tr B (diffKink D x) (diffKink D' x') := by
  unfold diffKink
  rw [hD]
  simp only
  cases D.beh with
  | abstract => exact tr_then hx fun e _ he => tr_pure hK fun r hr => o_derivCreate he harg hr
  | constant => exact tr_ok (oInt 0)

theorem tr_diffFn1 {func : Expr F} {f : BuiltIn} (hf : rootless (.fn f : Head F) = true) {a d : Expr F} (hfn : O func) (ha : O a) (hd : O d) :
    Tr B (diffFn1 D func f a d) (diffFn1 D' func f a d) := by
  have hm : D'.m = D.m := by rw [hD]
  unfold diffFn1
  rw [hm]
  have hs : ∀ g, Tr B (fns D.K D.m g a) (fns D'.K D.m g a) := fun g => tr_fns hK _ g ha
  cases f <;> simp only
  case arccos => cases hf
  case arcsin => cases hf
  case arccosh => cases hf
  case arcsinh => cases hf
  case cos => exact tr_then (hs _) fun _ _ h => tr_then (tr_negE hK h) fun _ _ h => tr_mul hK (o2 h hd)
  case sin => exact tr_then (hs _) fun _ _ h => tr_mul hK (o2 h hd)
  case tan => exact tr_then (hs _) fun _ _ h => tr_then (tr_powInt hK h _ (by decide)) fun _ _ h => tr_mul hK (o2 h hd)
  case arctan => exact tr_then (tr_squarePlusOne hK ha) fun _ _ h => tr_divE hK hd h
  case cosh => exact tr_then (hs _) fun _ _ h => tr_mul hK (o2 hd h)
  case sinh => exact tr_then (hs _) fun _ _ h => tr_mul hK (o2 hd h)
  case tanh => exact tr_then (tr_oneMinusSquare hK hfn) fun _ _ h => tr_mul hK (o2 h hd)
  case arctanh => exact tr_then (tr_oneMinusSquare hK ha) fun _ _ h => tr_then (tr_powInt hK h _ (by decide)) fun _ _ h => tr_mul hK (o2 h hd)
  case exp => exact tr_mul hK (o2 hfn hd)
  case log => exact tr_then (tr_powInt hK ha _ (by decide)) fun _ _ h => tr_mul hK (o2 h hd)
  case abs => exact tr_then (hs _) fun _ _ h => tr_then (tr_divE hK ha h) fun _ _ h => tr_mul hK (o2 h hd)
  case signum => exact tr_diffKink hK hD harg (hs _)
  case floor => exact tr_diffKink hK hD harg (hs _)
  case arctan2 => exact tr_error

theorem tr_diffFn {func : Expr F} {f : BuiltIn} (hf : rootless (.fn f : Head F) = true) {as ds : List (Expr F)} (hfn : O func) (ha : ∀ a ∈ as, O a)
    (hd : ∀ d ∈ ds, O d) : Tr B (diffFn D func f as ds) (diffFn D' func f as ds) := by
  refine tr_ite (tr_ok (oInt 0)) ?_
  split
  · exact tr_diffFn1 hK hD harg hf hfn (ha _ (by simp)) (hd _ (by simp))
  · exact tr_ite (tr_diffAtan2 hK (ha _ (by simp)) (ha _ (by simp)) (hd _ (by simp)) (hd _ (by simp))) tr_error
  · exact tr_error

theorem tr_diffDeriv {e f : Expr F} (he : O e) : Tr B (diffDeriv D e f) (diffDeriv D' e f) := by
  unfold diffDeriv
  rw [hD]
  exact tr_ite (tr_ok (oInt 1)) (tr_ite (tr_ok (oInt 0)) (tr_ite (tr_ok (oInt 0)) (tr_pure hK fun r hr => o_derivCreate he harg hr)))

omit hK hD harg in
theorem trl_then {x x' : Res (List (Expr F))} (hx : TrL B x x') {f f' : List (Expr F) → Res (Expr F)} (hf : ∀ a, (∀ t ∈ a, O t) → Tr B (f a) (f' a)) :
    Tr B (andThen x f) (andThen x' f') := by
  cases x with
  | error e => exact tr_error
  | ok a =>
    obtain ⟨h1, h2⟩ := hx a rfl
    rw [h1]
    exact hf a h2

include ho
theorem tr_diffNode {h : Head F} (hh : rootless h = true) {as : List (Expr F)} (he : O (.node h as)) {kids kids' branches branches' : Unit → Res (List (Expr F))}
    (hk : TrL B (kids ()) (kids' ())) (hb : TrL B (branches ()) (branches' ())) : Tr B (diffNode D h as kids branches) (diffNode D' h as kids' branches') := by
  have ha := (over_node.1 he).2
  have hm : D'.m = D.m := by rw [hD]
  have hg : D'.arg = D.arg := by rw [hD]
  have hot : D'.other = D.other := by rw [hD]
  unfold diffNode
  rw [hm, hg, hot]
  split
  any_goals exact tr_ok (oInt _)
  · exact tr_ok oUndef
  · exact trl_then hk fun ds hd => tr_add hK hd
  · exact trl_then hk fun ds hd => tr_diffProduct hK ha hd
  · refine trl_then hk fun ds hd => ?_
    split
    · obtain ⟨⟨h1, h2⟩, h3⟩ := oPow.1 he
      exact tr_diffPow hK _ h1 h2 (hd _ (by simp)) (hd _ (by simp)) h3
    · exact tr_error
  · exact trl_then hk fun ds hd => tr_diffFn hK hD harg hh he ha hd
  · refine trl_then hb fun ds hd => ?_
    split
    · exact tr_ok (o_condCreate (ha _ (by simp)) (hd _ (by simp)) (hd _ (by simp)))
    · exact tr_error
  · refine trl_then hk fun ds hd => ?_
    split
    · exact tr_ok (o_unevalCreate (hd _ (by simp)))
    · exact tr_error
  · exact tr_diffKink hK hD harg (tr_ok he)
  · exact tr_ite (tr_ok (oInt 1)) (tr_diffKink hK hD harg (tr_ok he))
  · split
    · exact tr_diffDeriv hK hD harg he
    · exact tr_error
  · exact trl_then hk fun ds _ => tr_pure hK fun r hr => ho _ _ r hr

/-- No function in the expression has a derivative with a root. -/
abbrev Rootless (e : Expr F) : Prop := Over (fun h _ => rootless h = true) e

mutual
theorem tr_diffE : ∀ e : Expr F, O e → Rootless e → Tr B (diffE D e) (diffE D' e)
  | .node h as, he, hr => by
    have h1 := trl_diffs as (over_node.1 he).2 (over_node.1 hr).2
    have h2 := trl_diffTail as (over_node.1 he).2 (over_node.1 hr).2
    exact tr_diffNode hK hD harg ho (over_node.1 hr).1 he (kids := fun _ => diffs D as) (kids' := fun _ => diffs D' as)
      (branches := fun _ => diffTail D as) (branches' := fun _ => diffTail D' as) h1 h2
theorem trl_diffs : ∀ es : List (Expr F), (∀ e ∈ es, O e) → (∀ e ∈ es, Rootless e) → TrL B (diffs D es) (diffs D' es)
  | [], _, _ => fun r h => by cases h; exact ⟨rfl, by simp⟩
  | a :: as, he, hr => fun r h => by
    obtain ⟨d, h1, h2⟩ := andThen_ok h
    obtain ⟨ds, h3, h4⟩ := andThen_ok h2
    cases h4
    obtain ⟨h5, h6⟩ := tr_diffE a (he a (by simp)) (hr a (by simp)) d h1
    obtain ⟨h7, h8⟩ := trl_diffs as (fun x hx => he x (by simp [hx])) (fun x hx => hr x (by simp [hx])) ds h3
    unfold diffs andThen
    rw [h5]
    simp only [h7]
    refine ⟨trivial, fun x hx => ?_⟩
    rcases List.mem_cons.1 hx with rfl | hx
    · exact h6
    · exact h8 x hx
theorem trl_diffTail : ∀ es : List (Expr F), (∀ e ∈ es, O e) → (∀ e ∈ es, Rootless e) → TrL B (diffTail D es) (diffTail D' es)
  | [], _, _ => fun r h => by cases h; exact ⟨rfl, by simp⟩
  | _ :: as, he, hr => trl_diffs as (fun x hx => he x (by simp [hx])) (fun x hx => hr x (by simp [hx]))
end

theorem tr_diff1 {e : Expr F} (he : O e) (hr : Rootless e) : Tr B (diff D e 1) (diff D' e 1) := by
  have hg : D'.arg = D.arg := by rw [hD]
  unfold diff
  rw [hg]
  refine tr_ite tr_error (tr_ite ?_ tr_error)
  change Tr B (andThen (diffE D e) fun r => .ok r) (andThen (diffE D' e) fun r => .ok r)
  exact tr_then (tr_diffE hK hD harg ho e he hr) fun a _ h => tr_ok h
end

end Wf.Sym
