import Verif.Sym.ExponentSpec
import Verif.Sym.LawfulSpec
import Verif.Sym.SumLemmas

/-!
# Constructors that ask no sign question

On expressions whose powers need no sign question, the constructors give the same result for all answers to the sign questions, and the results are such
expressions again.
-/

namespace Wf.Sym

variable {F : Type} [DecidableEq F] [FloatSem F] {B : Expr F → Prop}

omit [DecidableEq F] [FloatSem F] in
theorem expNode_of {h : Head F} {as : List (Expr F)} (hh : h ≠ .pow) : ExpNode B h as := fun he => absurd he hh

/-- The base and exponent of an entry of a product: the exponential function is kept as a power of Euler's number. -/
def TermArgs (B : Expr F → Prop) (b e : Expr F) : Prop := PowArgs B b e ∨ b = .const .euler

local notation "O" => Over (ExpNode B)

section
omit [FloatSem F]

theorem oNode {h : Head F} {as : List (Expr F)} (hh : h ≠ .pow) : O (.node h as) ↔ ∀ a ∈ as, O a := by
  rw [over_node]
  exact ⟨fun k => k.2, fun k => ⟨expNode_of hh, k⟩⟩

theorem oPow {b e : Expr F} : O (.pow b e) ↔ (O b ∧ O e) ∧ PowArgs B b e := by
  rw [over_node]
  constructor
  · rintro ⟨h1, h2⟩
    obtain ⟨b', e', h3, h4⟩ := h1 rfl
    cases h3
    exact ⟨⟨h2 _ (by simp), h2 _ (by simp)⟩, h4⟩
  · rintro ⟨⟨h1, h2⟩, h3⟩
    exact ⟨fun _ => ⟨b, e, rfl, h3⟩, by simpa using ⟨h1, h2⟩⟩

theorem oLeaf {h : Head F} (hh : h ≠ .pow) : O (.node h []) := (oNode hh).2 (by simp)
theorem oInt (n : Int) : O (.int n : Expr F) := oLeaf (by simp)
theorem oRat (r : RatC) : O (.rat r : Expr F) := oLeaf (by simp)
theorem oFlt (f : F) : O (.flt f : Expr F) := oLeaf (by simp)
theorem oConst (c : SymConst) : O (.const c : Expr F) := oLeaf (by simp)
theorem oZoo : O (.zoo : Expr F) := oLeaf (by simp)
theorem oUndef : O (.undef : Expr F) := oLeaf (by simp)
theorem oImag : O (.imag : Expr F) := oLeaf (by simp)
theorem oMul {ts : List (Expr F)} : O (.mul ts) ↔ ∀ t ∈ ts, O t := oNode (by simp)
theorem oAdd {ts : List (Expr F)} : O (.add ts) ↔ ∀ t ∈ ts, O t := oNode (by simp)
theorem oFn {f : BuiltIn} {ts : List (Expr F)} : O (.fn f ts) ↔ ∀ t ∈ ts, O t := oNode (by simp)

theorem oSome {x : Expr F} (h : O x) : ∀ r ∈ some x, O r := by
  intro r hr
  cases hr
  exact h

theorem oNone : ∀ r ∈ (none : Option (Expr F)), O r := fun _ hr => nomatch hr

theorem o2 {a b : Expr F} (ha : O a) (hb : O b) : ∀ t ∈ [a, b], O t := by simpa using ⟨ha, hb⟩
end

theorem o_ratExpr {r : RatC} {e : Expr F} (h : ratExpr r = .ok e) : O e ∧ isRatConst e = true := by
  unfold ratExpr at h
  split at h
  · cases h
  · cases h; exact ⟨oInt _, rfl⟩
  · cases h; exact ⟨oRat _, rfl⟩

theorem o_floatExpr (f : F) : O (floatExpr f) := by
  unfold floatExpr
  split
  · exact oUndef
  · split
    · exact oZoo
    · exact oFlt f

theorem o_toExpr {c : Coeff F} {e : Expr F} (h : c.toExpr = .ok e) : O e := by
  cases c with
  | int n => cases h; exact oInt n
  | rat r => exact (o_ratExpr h).1
  | flt f => cases h; exact o_floatExpr f
  | undef => cases h; exact oUndef
  | zoo => cases h; exact oZoo

theorem o_sorted {ts : List (Expr F)} : (∀ t ∈ sortTerms ts, O t) ↔ ∀ t ∈ ts, O t := by
  constructor
  · exact fun h t ht => h t ((sortTerms_perm ts).mem_iff.2 ht)
  · exact fun h t ht => h t ((sortTerms_perm ts).mem_iff.1 ht)

theorem o_newMul2 {a b : Expr F} (ha : O a) (hb : O b) : O (newMul2 a b) := by
  unfold newMul2
  exact oMul.2 (o_sorted.2 (o2 ha hb))

theorem o_maybeNewMul {ts : List (Expr F)} (h : ∀ t ∈ ts, O t) : O (maybeNewMul ts) := by
  rcases ts with _ | ⟨a, _ | ⟨b, ts⟩⟩
  · exact oInt 1
  · exact h a (by simp)
  · rw [show maybeNewMul (a :: b :: ts) = .mul (sortTerms (a :: b :: ts)) from rfl]
    exact oMul.2 (o_sorted.2 h)

theorem o_splitMul {ts : List (Expr F)} (h : O (.mul ts)) : O (splitMul ts).1 ∧ O (splitMul ts).2 := by
  unfold splitMul
  have h2 := oMul.1 h
  split
  · exact ⟨oInt 1, h⟩
  · exact ⟨o_maybeNewMul fun t ht => h2 t (List.mem_filter.1 ht).1, o_maybeNewMul fun t ht => h2 t (List.mem_filter.1 ht).1⟩

theorem o_asCoeffMul {e : Expr F} (h : O e) : O (asCoeffMul e).1 ∧ O (asCoeffMul e).2 := by
  unfold asCoeffMul
  split
  · exact ⟨h, oInt 1⟩
  · exact ⟨h, oInt 1⟩
  · exact ⟨h, oInt 1⟩
  · rename_i a b
    have h2 := oMul.1 h
    split_ifs
    · exact ⟨h2 _ (by simp), h2 _ (by simp)⟩
    · exact ⟨h2 _ (by simp), h2 _ (by simp)⟩
    · exact o_splitMul h
  · exact o_splitMul h
  · exact ⟨oInt 1, h⟩

/-! ## Agreement -/

/-- The entries of `addition_parts`. -/
abbrev OA (B : Expr F → Prop) (l : List (Expr F × Expr F)) : Prop := ∀ be ∈ l, Over (ExpNode B) be.1 ∧ Over (ExpNode B) be.2

/-- The entries of `multiplication_parts`. -/
abbrev OM (B : Expr F → Prop) (l : List (Expr F × Expr F)) : Prop := ∀ be ∈ l, (Over (ExpNode B) be.1 ∧ Over (ExpNode B) be.2) ∧ TermArgs B be.1 be.2

/-- The second constructors give the results of the first; these are expressions of the same kind. Integers and rational numbers stay such. -/
structure Agree (B : Expr F → Prop) (K K' : Ctors F) : Prop where
  simple : ∀ b, B b → simpleBase b = true
  ints : ∀ n m : Int, B (.int n) → B (.int m)
  add : ∀ ts r, (∀ t ∈ ts, Over (ExpNode B) t) → K.add ts = .ok r → K'.add ts = .ok r ∧ Over (ExpNode B) r
  mul : ∀ ts r, (∀ t ∈ ts, Over (ExpNode B) t) → K.mul ts = .ok r → K'.mul ts = .ok r ∧ Over (ExpNode B) r
  pow : ∀ b e r, Over (ExpNode B) b → Over (ExpNode B) e → TermArgs B b e → K.pow b e = .ok r → K'.pow b e = .ok r ∧ Over (ExpNode B) r
  visit : ∀ p t q, OM B p.terms → Over (ExpNode B) t → K.visit p t = .ok q → K'.visit p t = .ok q ∧ OM B q.terms
  addInt : ∀ a b r, IntExp a → IntExp b → K.add [a, b] = .ok r → IntExp r
  addRat : ∀ a b r, isRatConst a = true → isRatConst b = true → K.add [a, b] = .ok r → isRatConst r = true
  mulInt : ∀ a b r, IntExp a → IntExp b → K.mul [a, b] = .ok r → IntExp r
  mulRat : ∀ a b r, isRatConst a = true → isRatConst b = true → K.mul [a, b] = .ok r → isRatConst r = true

/-- The only sign question that matters is asked for a float to an integer power. -/
def SameLic (lic lic' : Lic F) : Prop := ∀ x n, InI64 n → lic.floatPow x (FloatOps.ofInt n) = lic'.floatPow x (FloatOps.ofInt n)

variable {K K' : Ctors F} {lic lic' : Lic F}

theorem g_mapRes {α : Type} {f f' : α → Res (Expr F)} : ∀ {as : List α} {bs : List (Expr F)}, mapRes f as = .ok bs →
    (∀ a ∈ as, ∀ b, f a = .ok b → f' a = .ok b ∧ O b) → mapRes f' as = .ok bs ∧ ∀ b ∈ bs, O b
  | [], bs, h, _ => by cases h; exact ⟨rfl, by simp⟩
  | a :: as, bs, h, hf => by
    unfold mapRes at h
    cases ha : f a with
    | error e => simp [ha] at h
    | ok b =>
      cases hm : mapRes f as with
      | error e => simp [ha, hm] at h
      | ok cs =>
        simp only [ha, hm, Except.ok.injEq] at h
        subst h
        obtain ⟨h1, h2⟩ := hf a (by simp) b ha
        obtain ⟨h3, h4⟩ := g_mapRes hm fun y hy => hf y (by simp [hy])
        refine ⟨?_, fun x hx => ?_⟩
        · unfold mapRes; simp only [h1, h3]
        · rcases List.mem_cons.1 hx with rfl | hx
          · exact h2
          · exact h4 x hx

theorem g_fold {σ α : Type} {f f' : σ → α → Res σ} {Q : σ → Prop} {R : α → Prop}
    (hf : ∀ s a s1, Q s → R a → f s a = .ok s1 → f' s a = .ok s1 ∧ Q s1) : ∀ {as : List α} {s s' : σ}, Q s → (∀ a ∈ as, R a) → foldRes f s as = .ok s' →
    foldRes f' s as = .ok s' ∧ Q s'
  | [], s, s', h0, _, h => by cases h; exact ⟨rfl, h0⟩
  | a :: as, s, s', h0, ha, h => by
    unfold foldRes at h
    cases h1 : f s a with
    | error e => simp [h1] at h
    | ok s1 =>
      simp only [h1] at h
      obtain ⟨h2, h3⟩ := hf s a s1 h0 (ha a (by simp)) h1
      unfold foldRes
      simp only [h2]
      exact g_fold hf h3 (fun x hx => ha x (by simp [hx])) h

theorem oa_find {k v : Expr F} {l : List (Expr F × Expr F)} (hl : OA B l) (h : findKey k l = some v) :
    O v ∧ ∀ w, O w → OA B (setKey k w l) := by
  obtain ⟨l1, l2, rfl, h2, h3⟩ := findKey_split h
  refine ⟨(hl (k, v) (by simp)).2, fun w hw => ?_⟩
  rw [h2]
  intro be hbe
  simp only [List.mem_append, List.mem_cons] at hbe
  rcases hbe with hbe | rfl | hbe
  · exact hl be (by simp [hbe])
  · exact ⟨(hl (k, v) (by simp)).1, hw⟩
  · exact hl be (by simp [hbe])

theorem om_find {k v : Expr F} {l : List (Expr F × Expr F)} (hl : OM B l) (h : findKey k l = some v) :
    (O v ∧ TermArgs B k v) ∧ OM B (eraseKey k l) ∧ ∀ w, O w → TermArgs B k w → OM B (setKey k w l) := by
  obtain ⟨l1, l2, rfl, h2, h3⟩ := findKey_split h
  refine ⟨⟨(hl (k, v) (by simp)).1.2, (hl (k, v) (by simp)).2⟩, ?_, fun w hw ht => ?_⟩
  · rw [h3]
    intro be hbe
    exact hl be (by simp only [List.mem_append, List.mem_cons] at hbe ⊢; tauto)
  · rw [h2]
    intro be hbe
    simp only [List.mem_append, List.mem_cons] at hbe
    rcases hbe with hbe | rfl | hbe
    · exact hl be (by simp [hbe])
    · exact ⟨⟨(hl (k, v) (by simp)).1.1, hw⟩, ht⟩
    · exact hl be (by simp [hbe])

/-! ## Sums -/

section
omit [FloatSem F]
mutual
theorem o_flatAdd : ∀ e : Expr F, O e → ∀ t ∈ flatAdd e, O t
  | .node h as => by
    intro hg t ht
    rw [flatAdd.eq_def] at ht
    cases h
    case add => exact o_flatAdds as (over_node.1 hg).2 t ht
    all_goals (simp only [List.mem_singleton] at ht; subst ht; exact hg)
theorem o_flatAdds : ∀ es : List (Expr F), (∀ e ∈ es, O e) → ∀ t ∈ flatAdds es, O t
  | [] => by intro _ t ht; rw [flatAdds] at ht; simp at ht
  | a :: as => by
    intro hg t ht
    rw [flatAdds, List.mem_append] at ht
    rcases ht with ht | ht
    · exact o_flatAdd a (hg a (by simp)) t ht
    · exact o_flatAdds as (fun e he => hg e (by simp [he])) t ht
end
end

theorem o_addTwo {a b r : Expr F} (h : addTwo a b = .ok (some r)) : O r := by
  unfold addTwo at h
  split at h
  · split at h
    · cases h
    · split at h
      · cases h
      · rename_i hc; cases h; exact o_toExpr hc
  all_goals first | (cases h; exact oUndef) | (cases h; exact oZoo) | cases h

theorem g_addTerm (hK : Agree B K K') (p : AddParts F) (t : Expr F) (q : AddParts F) (hp : OA B p.terms) (ht : O t)
    (h : addTerm K p t = .ok q) : addTerm K' p t = .ok q ∧ OA B q.terms := by
  unfold addTerm at h ⊢
  have h2 := o_asCoeffMul ht
  split at h
  · split at h
    · cases h
    · cases h; exact ⟨rfl, hp⟩
  · split at h
    · cases h
      refine ⟨rfl, fun be hbe => ?_⟩
      rcases List.mem_append.1 hbe with hbe | hbe
      · exact hp be hbe
      · rw [List.mem_singleton] at hbe; subst hbe; exact ⟨h2.2, h2.1⟩
    · rename_i c0 hf
      have h3 := oa_find hp hf
      split at h
      · cases h
      · rename_i c' hc
        obtain ⟨h4, h5⟩ := hK.add _ _ (o2 h3.1 h2.1) hc
        cases h
        rw [h4]
        exact ⟨rfl, h3.2 c' h5⟩

theorem g_sumOperand (hK : Agree B K K') {mc : Expr F × Expr F} {r : Expr F} (hm : O mc.1 ∧ O mc.2) (h : sumOperand K mc = .ok r) :
    sumOperand K' mc = .ok r ∧ O r := by
  unfold sumOperand at h ⊢
  split at h
  · rename_i h1
    cases h
    rw [if_pos h1]
    exact ⟨rfl, hm.1⟩
  · rename_i h1
    rw [if_neg h1]
    split at h
    · exact hK.mul _ _ (o2 hm.1 hm.2) h
    · exact hK.mul _ _ (o2 hm.1 hm.2) h
    · cases h; exact ⟨rfl, o_newMul2 hm.2 hm.1⟩

theorem o_newSum {ts : List (Expr F)} (h : ∀ t ∈ ts, O t) : O (newSum ts) := by
  rcases ts with _ | ⟨a, _ | ⟨b, ts⟩⟩
  · exact oInt 0
  · exact h a (by simp)
  · rw [show newSum (a :: b :: ts) = .add (sortTerms (a :: b :: ts)) from rfl, oAdd, o_sorted]; exact h

theorem g_createSum (hK : Agree B K K') {p : AddParts F} {r : Expr F} (hp : OA B p.terms) (h : createSum K p = .ok r) : createSum K' p = .ok r ∧ O r := by
  unfold createSum at h ⊢
  split at h
  · cases h
  · rename_i c hc
    split at h
    · rename_i hu
      cases h
      simp only [hu, if_true]
      exact ⟨trivial, oUndef⟩
    · rename_i hu
      split at h
      · cases h
      · rename_i ts hts
        cases h
        obtain ⟨h1, h2⟩ := g_mapRes (B := B) (f' := sumOperand K') hts fun mc hmc b hb => g_sumOperand hK (hp mc (List.mem_filter.1 hmc).1) hb
        simp only [hu, h1]
        refine ⟨by simp, o_newSum ?_⟩
        split
        · exact h2
        · intro t ht
          rcases List.mem_cons.1 ht with rfl | ht
          · exact o_toExpr hc
          · exact h2 t ht

theorem g_sumGeneral (hK : Agree B K K') {ts : List (Expr F)} {r : Expr F} (ht : ∀ t ∈ ts, O t) (h : sumGeneral K ts = .ok r) :
    sumGeneral K' ts = .ok r ∧ O r := by
  unfold sumGeneral at h ⊢
  split at h
  · cases h
  · rename_i p hp
    obtain ⟨h1, h2⟩ := g_fold (f' := addTerm K') (Q := fun p : AddParts F => OA B p.terms) (R := O) (fun s a s1 => g_addTerm hK s a s1) (by simp [OA])
      (o_flatAdds ts ht) hp
    simp only [h1]
    exact g_createSum hK h2 h

theorem g_addFrom (hK : Agree B K K') (ts : List (Expr F)) (r : Expr F) (ht : ∀ t ∈ ts, O t) (h : addFrom K ts = .ok r) : addFrom K' ts = .ok r ∧ O r := by
  unfold addFrom at h ⊢
  split at h
  · cases h
  · cases h; exact ⟨rfl, ht _ (by simp)⟩
  · split at h
    · cases h
    · rename_i hr; cases h; simp only [hr]; exact ⟨trivial, o_addTwo hr⟩
    · rename_i hr; exact g_sumGeneral hK ht h
  · exact g_sumGeneral hK ht h

/-! ## Powers -/

theorem g_fromComplex (hK : Agree B K K') {c : F × F} {r : Expr F} (h : fromComplex K c = .ok r) : fromComplex K' c = .ok r ∧ O r := by
  unfold fromComplex at h ⊢
  split at h
  · rename_i hc
    cases h
    rw [if_pos hc]
    exact ⟨rfl, o_floatExpr _⟩
  · rename_i hc
    rw [if_neg hc]
    split at h
    · cases h
    · rename_i m hm
      obtain ⟨h1, h2⟩ := hK.mul _ _ (o2 (o_floatExpr _) oImag) hm
      simp only [h1]
      exact hK.add _ _ (o2 (o_floatExpr _) h2) h

theorem g_expFn (hK : Agree B K K') {x r : Expr F} (hx : O x) (h : expFn K x = .ok r) : expFn K' x = .ok r ∧ O r := by
  unfold expFn at h ⊢
  by_cases h1 : isInt 0 x = true
  · rw [if_pos h1] at h ⊢; cases h; exact ⟨rfl, oInt 1⟩
  rw [if_neg h1] at h ⊢
  by_cases h2 : isInt 1 x = true
  · rw [if_pos h2] at h ⊢; cases h; exact ⟨rfl, oConst _⟩
  rw [if_neg h2] at h ⊢
  by_cases h3 : (isZoo x || isUndef x) = true
  · rw [if_pos h3] at h ⊢; cases h; exact ⟨rfl, oUndef⟩
  rw [if_neg h3] at h ⊢
  split at h
  · exact g_fromComplex hK h
  · cases h; exact ⟨rfl, oFn.2 (by simpa using hx)⟩

theorem g_powOperandExpr (hB : ∀ n, B (.int n)) {o : PowOperand} {r : Expr F} (h : powOperandExpr o = .ok r) : O r := by
  unfold powOperandExpr at h
  split at h
  · exact (o_ratExpr h).1
  · cases h; exact oImag
  · split at h
    · cases h
    · rename_i hx
      cases h
      obtain ⟨h1, h2⟩ := o_ratExpr (B := B) hx
      exact oPow.2 ⟨⟨oInt _, h1⟩, Or.inr ⟨hB _, fun _ => h2⟩⟩

/-- A numeric rule that makes no product of powers, unless non-integer exponents are allowed. -/
theorem g_numPowRes (hK : Agree B K K') {x : Res NumPow} {o : Option (Expr F)} (hx : ∀ ops, x = .ok (.prod ops) → ∀ n, B (.int n)) (h : numPowRes K x = .ok o) :
    numPowRes K' x = .ok o ∧ ∀ r ∈ o, O r := by
  unfold numPowRes at h ⊢
  split at h
  · cases h
  · rename_i y
    split at h
    · cases h
    · rename_i z hz
      cases h
      have : numPowExpr K' y = .ok z ∧ O z := by
        unfold numPowExpr at hz ⊢
        split at hz
        · exact ⟨hz, (o_ratExpr hz).1⟩
        · cases hz; exact ⟨rfl, oZoo⟩
        · cases hz; exact ⟨rfl, oUndef⟩
        · split at hz
          · cases hz
          · rename_i ts hts
            have hB := hx _ rfl
            obtain ⟨_, h2⟩ := g_mapRes (B := B) (f' := powOperandExpr) hts fun a _ b hb => ⟨hb, g_powOperandExpr hB hb⟩
            exact hK.mul _ _ h2 hz
      simp only [this.1]
      exact ⟨trivial, oSome (this.2)⟩

theorem powRatInt_not_prod {b : RatC} {e : Int} {ops : List PowOperand} : powRatInt b e ≠ .ok (.prod ops) := by
  intro h
  unfold powRatInt at h
  split at h
  · cases h
  · split at h
    · cases h
    · cases h1 : cabs e with
      | error x => rw [h1] at h; cases h
      | ok a =>
        rw [h1] at h
        change (cToU64 a >>= _) = _ at h
        cases h2 : cToU64 a with
        | error x => rw [h2] at h; cases h
        | ok a2 =>
          rw [h2] at h
          change (integerPower b.n a2 >>= _) = _ at h
          cases h3 : integerPower b.n a2 with
          | error x => rw [h3] at h; cases h
          | ok n =>
            rw [h3] at h
            change (integerPower b.d a2 >>= _) = _ at h
            cases h4 : integerPower b.d a2 with
            | error x => rw [h4] at h; cases h
            | ok d =>
              rw [h4] at h
              change (if e ≥ 0 then _ else _) = _ at h
              split at h
              · cases h5 : ratMk n d with
                | error x => rw [h5] at h; cases h
                | ok q => rw [h5] at h; cases h
              · cases h5 : ratMk d n with
                | error x => rw [h5] at h; cases h
                | ok q => rw [h5] at h; cases h

theorem powIntInt_not_prod {b e : Int} {ops : List PowOperand} : powIntInt b e ≠ .ok (.prod ops) := by
  intro h
  unfold powIntInt at h
  split at h
  · split at h
    · cases h
    · cases h1 : ratMk 1 b with
      | error x => rw [h1] at h; cases h
      | ok q =>
        rw [h1] at h
        change (cneg e >>= _) = _ at h
        cases h2 : cneg e with
        | error x => rw [h2] at h; cases h
        | ok a2 => rw [h2] at h; exact powRatInt_not_prod h
  · split at h
    · cases h
    · cases h1 : integerPowerChecked b e with
      | error x => rw [h1] at h; cases h
      | ok q => rw [h1] at h; cases h

theorem o_powZoo (a b : Bool) : O (powZoo a b : Expr F) := by
  unfold powZoo
  split_ifs
  · exact oZoo
  · exact oInt 0
  · exact oUndef

theorem o_powFloat {a b : Bool} {x y : F} {r : Expr F} (h : powFloat lic a b x y = some r) : O r := by
  unfold powFloat at h
  split_ifs at h
  · cases h; exact oZoo
  · cases h; exact oFlt _

section
omit [DecidableEq F]
theorem ofExpr_some {e : Expr F} {c : Coeff F} (h : Coeff.ofExpr e = some c) : (∃ n, e = .int n ∧ c = .int n) ∨ (∃ r, e = .rat r ∧ c = .rat r) ∨
    (∃ f, e = .flt f ∧ c = .flt f) ∨ (e = .undef ∧ c = .undef) ∨ (e = .zoo ∧ c = .zoo) := by
  unfold Coeff.ofExpr at h
  split at h <;> cases h <;> simp
end

theorem g_powNumeric (hK : Agree B K K') (hl : SameLic lic lic') {b e : Expr F} {o : Option (Expr F)} (ht : TermArgs B b e)
    (h : powNumeric K lic b e = .ok o) : powNumeric K' lic' b e = .ok o ∧ ∀ r ∈ o, O r := by
  have hflt : ∀ x y, b = .flt x → e = .flt y → False := by
    rintro x y rfl rfl
    rcases ht with (⟨n, h, _⟩ | ⟨h, _⟩) | h
    · cases h
    · cases hK.simple _ h
    · cases h
  have hfltr : ∀ x y, b = .flt x → e = .rat y → False := by
    rintro x y rfl rfl
    rcases ht with (⟨n, h, _⟩ | ⟨h, _⟩) | h
    · cases h
    · cases hK.simple _ h
    · cases h
  have hif : ∀ x y, b = .int x → e = .flt y → False := by
    rintro x y rfl rfl
    rcases ht with (⟨n, h, _⟩ | ⟨_, h⟩) | h
    · cases h
    · exact absurd (h rfl) (by simp [isRatConst])
    · cases h
  have hrf : ∀ x y, b = .rat x → e = .flt y → False := by
    rintro x y rfl rfl
    rcases ht with (⟨n, h, _⟩ | ⟨_, h⟩) | h
    · cases h
    · exact absurd (h rfl) (by simp [isRatConst])
    · cases h
  have hfi : ∀ x y, b = .flt x → e = .int y → InI64 y := by
    rintro x y rfl rfl
    rcases ht with (⟨n, h, h2⟩ | ⟨h, _⟩) | h
    · cases h; exact h2
    · cases hK.simple _ h
    · cases h
  have hir : ∀ x y, b = .int x → e = .rat y → ∀ n, B (.int n) := by
    rintro x y rfl rfl
    rcases ht with (⟨n, h, _⟩ | ⟨h, _⟩) | h
    · cases h
    · exact fun n => hK.ints _ n h
    · cases h
  cases hb : Coeff.ofExpr b with
  | none =>
    cases he : Coeff.ofExpr e with
    | none =>
      unfold powNumeric at h ⊢
      rw [hb, he] at h ⊢
      cases h
      exact ⟨rfl, oNone⟩
    | some d =>
      unfold powNumeric at h ⊢
      rw [hb, he] at h ⊢
      cases d <;> cases h <;> first | exact ⟨rfl, oNone⟩ | exact ⟨rfl, oSome (oUndef)⟩
  | some c =>
    cases he : Coeff.ofExpr e with
    | none =>
      unfold powNumeric at h ⊢
      rw [hb, he] at h ⊢
      cases c <;> cases h <;> first | exact ⟨rfl, oNone⟩ | exact ⟨rfl, oSome (oUndef)⟩
    | some d =>
      unfold powNumeric at h ⊢
      rw [hb, he] at h ⊢
      rcases ofExpr_some hb with ⟨n, h1, rfl⟩ | ⟨n, h1, rfl⟩ | ⟨n, h1, rfl⟩ | ⟨h1, rfl⟩ | ⟨h1, rfl⟩ <;>
        rcases ofExpr_some he with ⟨k, h2, rfl⟩ | ⟨k, h2, rfl⟩ | ⟨k, h2, rfl⟩ | ⟨h2, rfl⟩ | ⟨h2, rfl⟩
      · exact g_numPowRes hK (fun ops ho => absurd ho powIntInt_not_prod) h
      · exact g_numPowRes hK (fun ops ho => hir _ _ h1 h2) h
      · exact (hif _ _ h1 h2).elim
      · cases h; exact ⟨rfl, oSome (oUndef)⟩
      · cases h; exact ⟨rfl, oNone⟩
      · exact g_numPowRes hK (fun ops ho => absurd ho powRatInt_not_prod) h
      · cases h; exact ⟨rfl, oNone⟩
      · exact (hrf _ _ h1 h2).elim
      · cases h; exact ⟨rfl, oSome (oUndef)⟩
      · cases h; exact ⟨rfl, oNone⟩
      · have hs : powFloat lic (fltIsZero n) (decide (k < 0)) n (FloatOps.ofInt k) = powFloat lic' (fltIsZero n) (decide (k < 0)) n (FloatOps.ofInt k) := by
          unfold powFloat; rw [hl n k (hfi _ _ h1 h2)]
        cases h
        exact ⟨congrArg _ hs.symm, fun r hr => o_powFloat hr⟩
      · exact (hfltr _ _ h1 h2).elim
      · exact (hflt _ _ h1 h2).elim
      · cases h; exact ⟨rfl, oSome (oUndef)⟩
      · cases h; exact ⟨rfl, oNone⟩
      all_goals (cases h; first | exact ⟨rfl, oNone⟩ | exact ⟨rfl, oSome (oUndef)⟩ | exact ⟨rfl, oSome (o_powZoo _ _)⟩)

theorem o_powImag {b e r : Expr F} (ht : TermArgs B b e) (h : powImag b e = .ok (some r)) : O r := by
  unfold powImag at h
  split at h
  · split at h
    · cases h
      unfold imagInt
      split
      · exact oInt 1
      · exact oInt _
      · exact oImag
      · exact o_newMul2 (oInt _) oImag
    · rename_i hi
      have hb : b = .imag := isImag_iff.1 (by assumption)
      have hB : B .imag := by
        subst hb
        rcases ht with (⟨n, h, _⟩ | ⟨h, _⟩) | h
        · cases h
        · exact h
        · cases h
      split at h
      · cases h
      · rename_i x hx
        cases h
        unfold imagRatExpr at hx
        split at hx
        · cases hx
        · split at hx
          · cases hx
          · rename_i y hy
            obtain ⟨k1, k2⟩ := o_ratExpr (B := B) hy
            have h1 : O (.pow .imag y : Expr F) := oPow.2 ⟨⟨oImag, k1⟩, Or.inr ⟨hB, fun h => by cases h⟩⟩
            cases hx
            split
            · exact o_newMul2 (oInt _) h1
            · exact h1
    · cases h
  · cases h

theorem g_powProduct (hK : Agree B K K') {ts : List (Expr F)} {e r : Expr F} (ht : ∀ t ∈ ts, O t) (he : O e) (hi : IntExp e)
    (h : powProduct K ts e = .ok (some r)) : powProduct K' ts e = .ok (some r) ∧ O r := by
  unfold powProduct at h ⊢
  split at h
  · cases h
  · rename_i ps hps
    obtain ⟨h1, h2⟩ := g_mapRes (B := B) (f' := fun t => K'.pow t e) hps fun t htm b hb => hK.pow _ _ _ (ht t htm) he (Or.inl (Or.inl hi)) hb
    simp only [h1]
    split at h
    · cases h
    · rename_i hy
      cases h
      obtain ⟨h3, h4⟩ := hK.mul _ _ h2 hy
      simp only [h3]
      exact ⟨trivial, h4⟩

/-- A base that is not simple has an integer exponent. -/
theorem termArgs_int (hK : Agree B K K') {b e : Expr F} (hs : simpleBase b = false) (ht : TermArgs B b e) : IntExp e := by
  rcases ht with (h | ⟨h, _⟩) | h
  · exact h
  · rw [hK.simple _ h] at hs; cases hs
  · subst h; cases hs

theorem g_powTail (hK : Agree B K K') {b e : Expr F} {o : Option (Expr F)} (hb : O b) (he : O e) (ht : TermArgs B b e) (h : powTail K lic b e = .ok o) :
    powTail K' lic' b e = .ok o ∧ ∀ r ∈ o, O r := by
  unfold powTail at h ⊢
  by_cases h1 : isZoo e = true
  · rw [if_pos h1] at h ⊢; cases h; exact ⟨rfl, oSome (oUndef)⟩
  rw [if_neg h1] at h ⊢
  by_cases h2 : isInt 0 e = true
  · rw [if_pos h2] at h ⊢; cases h; exact ⟨rfl, oSome (oInt 1)⟩
  rw [if_neg h2] at h ⊢
  by_cases h3 : isInt 1 e = true
  · rw [if_pos h3] at h ⊢; cases h; exact ⟨rfl, oSome (hb)⟩
  rw [if_neg h3] at h ⊢
  split at h
  · cases o with
    | none =>
      unfold powProduct at h
      split at h
      · cases h
      · split at h <;> cases h
    | some r =>
      obtain ⟨k1, k2⟩ := g_powProduct hK (oMul.1 hb) he (termArgs_int hK rfl ht) h
      exact ⟨k1, oSome (k2)⟩
  · exfalso
    rcases ht with (⟨n, h, _⟩ | ⟨h, _⟩) | h
    · cases h
    · cases hK.simple _ h
    · cases h
  · cases h; exact ⟨rfl, oNone⟩

theorem g_powNested (hK : Agree B K K') {b e : Expr F} {o : Option (Expr F)} (hb : O b) (he : O e) (ht : TermArgs B b e) (h : powNested K lic b e = .ok o) :
    powNested K' lic' b e = .ok o ∧ ∀ r ∈ o, O r := by
  unfold powNested at h ⊢
  split at h
  · rename_i b0 e0
    have hI : IntExp e := termArgs_int hK rfl ht
    have hi : isIntConst e = true := by obtain ⟨n, rfl, _⟩ := hI; rfl
    obtain ⟨⟨h1, h2⟩, h3⟩ := oPow.1 hb
    have hc : ∀ l : Lic F, canMulExp l b0 e0 e = match magLtOne e0 with | .error x => .error x | .ok _ => .ok true := by
      intro l
      unfold canMulExp
      cases magLtOne e0 with
      | error x => rfl
      | ok m => simp [hi]
    rw [hc lic] at h
    rw [show canMulExp lic' b0 e0 e = _ from hc lic']
    cases hm : magLtOne e0 with
    | error x => rw [hm] at h; cases h
    | ok m =>
      rw [hm] at h
      change (match K.mul [e0, e] with | .error e => _ | .ok x => _) = _ at h
      change (match K'.mul [e0, e] with | .error e => _ | .ok x => _) = _ ∧ _
      split at h
      · cases h
      · rename_i x hx
        obtain ⟨k1, k2⟩ := hK.mul _ _ (o2 h2 he) hx
        rw [k1]
        have hx' : TermArgs B b0 x := by
          rcases h3 with h3 | ⟨q1, q3⟩
          · exact Or.inl (Or.inl (hK.mulInt _ _ _ h3 hI hx))
          · refine Or.inl (Or.inr ⟨q1, fun hn => hK.mulRat _ _ _ (q3 hn) ?_ hx⟩)
            obtain ⟨n, rfl, _⟩ := hI
            rfl
        split at h
        · cases h
        · rename_i y hy
          cases h
          obtain ⟨k3, k4⟩ := hK.pow _ _ _ h1 k2 hx' hy
          simp only [k3]
          exact ⟨trivial, oSome (k4)⟩
  · rename_i x
    have hI : IntExp e := termArgs_int hK rfl ht
    have hi : isIntConst e = true := by obtain ⟨n, rfl, _⟩ := hI; rfl
    have h1 := oFn.1 hb x (by simp)
    rw [if_pos (by simp [hi])] at h
    rw [if_pos (by simp [hi])]
    split at h
    · cases h
    · rename_i y hy
      obtain ⟨k1, k2⟩ := hK.mul _ _ (o2 h1 he) hy
      simp only [k1]
      split at h
      · cases h
      · rename_i z hz
        cases h
        obtain ⟨k3, k4⟩ := g_expFn hK k2 hz
        simp only [k3]
        exact ⟨trivial, oSome (k4)⟩
  · exact g_powTail hK hb he ht h

theorem g_powSimplify (hK : Agree B K K') (hl : SameLic lic lic') {b e : Expr F} {o : Option (Expr F)} (hb : O b) (he : O e) (ht : TermArgs B b e)
    (h : powSimplify K lic b e = .ok o) : powSimplify K' lic' b e = .ok o ∧ ∀ r ∈ o, O r := by
  unfold powSimplify at h ⊢
  split at h
  · cases h
  · rename_i r hn
    cases h
    obtain ⟨h1, h2⟩ := g_powNumeric hK hl ht hn
    simp only [h1]
    exact ⟨trivial, h2⟩
  · rename_i hn
    obtain ⟨h1, _⟩ := g_powNumeric hK hl ht hn
    simp only [h1]
    unfold powSymbolic at h ⊢
    by_cases h3 : ((isInt 1 b || isInt (-1) b) && isZoo e) = true
    · rw [if_pos h3] at h ⊢; cases h; exact ⟨rfl, oSome (oUndef)⟩
    rw [if_neg h3] at h ⊢
    split at h
    · cases h
    · rename_i hi; cases h; simp only [hi]; exact ⟨trivial, fun r hr => by cases hr; exact o_powImag ht hi⟩
    · rename_i hi
      by_cases h4 : isConst .euler b = true
      · rw [if_pos h4] at h ⊢
        split at h
        · cases h
        · rename_i z hz
          cases h
          obtain ⟨k3, k4⟩ := g_expFn hK he hz
          simp only [k3]
          exact ⟨trivial, oSome (k4)⟩
      · rw [if_neg h4] at h ⊢
        exact g_powNested hK hb he ht h

theorem g_powCreate (hK : Agree B K K') (hl : SameLic lic lic') (b e r : Expr F) (hb : O b) (he : O e) (ht : TermArgs B b e) (h : powCreate K lic b e = .ok r) :
    powCreate K' lic' b e = .ok r ∧ O r := by
  unfold powCreate at h ⊢
  split at h
  · cases h
  · rename_i hn
    cases h
    obtain ⟨h1, h2⟩ := g_powSimplify hK hl hb he ht hn
    simp only [h1]
    exact ⟨trivial, h2 _ rfl⟩
  · rename_i hn
    cases h
    obtain ⟨h1, h2⟩ := g_powSimplify hK hl hb he ht hn
    simp only [h1]
    refine ⟨trivial, oPow.2 ⟨⟨hb, he⟩, ?_⟩⟩
    rcases ht with ht | rfl
    · exact ht
    · -- a power of Euler's number is an exponential
      exfalso
      unfold powSimplify at hn
      split at hn
      · cases hn
      · cases hn
      · unfold powSymbolic at hn
        rw [if_neg (by
          intro hc
          rw [Bool.and_eq_true, Bool.or_eq_true, isInt_iff, isInt_iff] at hc
          rcases hc with ⟨hc | hc, _⟩ <;> cases hc)] at hn
        rw [show powImag (.const .euler : Expr F) e = .ok none from by
          unfold powImag
          rw [if_neg (by rw [isImag_iff]; intro hc; cases hc)]] at hn
        change (if isConst .euler (.const .euler : Expr F) = true then _ else _) = _ at hn
        rw [if_pos (isConst_iff.2 rfl)] at hn
        split at hn <;> cases hn

/-! ## Products -/

section
omit [FloatSem F]
mutual
theorem o_flatMul : ∀ e : Expr F, O e → ∀ t ∈ flatMul e, O t
  | .node h as => by
    intro hg t ht
    rw [flatMul.eq_def] at ht
    cases h
    case mul => exact o_flatMuls as (over_node.1 hg).2 t ht
    all_goals (simp only [List.mem_singleton] at ht; subst ht; exact hg)
theorem o_flatMuls : ∀ es : List (Expr F), (∀ e ∈ es, O e) → ∀ t ∈ flatMuls es, O t
  | [] => by intro _ t ht; rw [flatMuls] at ht; simp at ht
  | a :: as => by
    intro hg t ht
    rw [flatMuls, List.mem_append] at ht
    rcases ht with ht | ht
    · exact o_flatMul a (hg a (by simp)) t ht
    · exact o_flatMuls as (fun e he => hg e (by simp [he])) t ht
end

theorem termArgs_one (b : Expr F) : TermArgs B b (.int 1) := Or.inl (Or.inl ⟨1, rfl, by decide⟩)
end

theorem termArgs_add (hK : Agree B K K') {b e0 e u : Expr F} (h0 : TermArgs B b e0) (h1 : TermArgs B b e) (hu : K.add [e0, e] = .ok u) : TermArgs B b u := by
  have hir : ∀ x : Expr F, IntExp x → isRatConst x = true := by
    rintro x ⟨n, rfl, _⟩
    rfl
  rcases h0 with h0 | h0
  · rcases h1 with h1 | h1
    · left
      rcases h0 with h0 | ⟨a1, a3⟩
      · rcases h1 with h1 | ⟨c1, c3⟩
        · exact Or.inl (hK.addInt _ _ _ h0 h1 hu)
        · exact Or.inr ⟨c1, fun hn => hK.addRat _ _ _ (hir _ h0) (c3 hn) hu⟩
      · refine Or.inr ⟨a1, fun hn => hK.addRat _ _ _ (a3 hn) ?_ hu⟩
        rcases h1 with h1 | ⟨c1, c3⟩
        · exact hir _ h1
        · exact c3 hn
    · exact Or.inr h1
  · exact Or.inr h0

theorem g_mergePower (hK : Agree B K K') (hl : SameLic lic lic') {p q : MulParts F} {b u e0 : Expr F} (hp : OM B p.terms) (hf : findKey b p.terms = some e0)
    (hb : O b) (hu : O u) (ht : TermArgs B b u) (h : mergePower K lic p b u = .ok q) : mergePower K' lic' p b u = .ok q ∧ OM B q.terms := by
  have h3 := om_find hp hf
  unfold mergePower at h ⊢
  split at h
  · rename_i hm
    rw [if_pos hm]
    split at h
    · cases h
    · rename_i r hr
      obtain ⟨k1, k2⟩ := g_powSimplify hK hl hb hu ht hr
      simp only [k1]
      split at h
      · rename_i hr2
        rw [if_pos hr2]
        exact hK.visit _ _ _ h3.2.1 (k2 r rfl) h
      · rename_i hr2
        rw [if_neg hr2]
        cases h
        exact ⟨rfl, h3.2.2 u hu ht⟩
    · rename_i hr
      obtain ⟨k1, k2⟩ := g_powSimplify hK hl hb hu ht hr
      simp only [k1]
      cases h
      exact ⟨rfl, h3.2.2 u hu ht⟩
  · rename_i hm
    rw [if_neg hm]
    cases h
    exact ⟨rfl, h3.2.2 u hu ht⟩

theorem g_insertPower (hK : Agree B K K') (hl : SameLic lic lic') {p q : MulParts F} {b e : Expr F} (hp : OM B p.terms)
    (hb : O b) (he : O e) (ht : TermArgs B b e) (h : insertPower K lic p b e = .ok q) : insertPower K' lic' p b e = .ok q ∧ OM B q.terms := by
  unfold insertPower at h ⊢
  split at h
  · cases h
    refine ⟨rfl, fun be hbe => ?_⟩
    rcases List.mem_append.1 hbe with h | h
    · exact hp be h
    · rw [List.mem_singleton] at h; subst h; exact ⟨⟨hb, he⟩, ht⟩
  · rename_i e0 hf
    split at h
    · cases h
    · rename_i u hu
      have h3 := om_find hp hf
      obtain ⟨k1, k2⟩ := hK.add _ _ (o2 h3.1.1 he) hu
      simp only [k1]
      exact g_mergePower hK hl hp hf hb k2 (termArgs_add hK h3.1.2 ht hu) h

theorem g_mulTerm (hK : Agree B K K') (hl : SameLic lic lic') (p : MulParts F) (t : Expr F) (q : MulParts F) (hp : OM B p.terms) (ht : O t)
    (h : mulTerm K lic p t = .ok q) : mulTerm K' lic' p t = .ok q ∧ OM B q.terms := by
  unfold mulTerm at h ⊢
  split at h
  · split at h
    · cases h
    · cases h; exact ⟨rfl, hp⟩
  · split at h
    · obtain ⟨⟨h1, h2⟩, h3⟩ := oPow.1 ht
      exact g_insertPower hK hl hp h1 h2 (Or.inl h3) h
    · exact g_insertPower hK hl hp (oConst _) (oFn.1 ht _ (by simp)) (Or.inr rfl) h
    · exact g_insertPower hK hl hp ht (oInt 1) (termArgs_one _) h

theorem g_mulVisit (hK : Agree B K K') (hl : SameLic lic lic') (p : MulParts F) (t : Expr F) (q : MulParts F) (hp : OM B p.terms) (ht : O t)
    (h : mulVisit K lic p t = .ok q) : mulVisit K' lic' p t = .ok q ∧ OM B q.terms :=
  g_fold (f' := mulTerm K' lic') (Q := fun p : MulParts F => OM B p.terms) (R := O) (fun s a s1 => g_mulTerm hK hl s a s1) hp (o_flatMul t ht) h

theorem o_collectPower {st st' : CreateSt F} {pw : Expr F} (hs : ∀ t ∈ st.2, O t) (hp : O pw)
    (h : collectPower st pw = .ok st') : ∀ t ∈ st'.2, O t := by
  have h2 := o_asCoeffMul hp
  have h3 : ∀ t ∈ (if isInt 1 (asCoeffMul pw).2 then st.2 else st.2 ++ [(asCoeffMul pw).2]), O t := by
    split
    · exact hs
    · intro t ht
      rcases List.mem_append.1 ht with ht | ht
      · exact hs t ht
      · rw [List.mem_singleton] at ht; subst ht; exact h2.2
  unfold collectPower at h
  split at h
  · split at h
    · cases h; exact h3
    · split at h
      · cases h
      · cases h; exact h3
  · cases h
    intro t ht
    rcases List.mem_append.1 ht with ht | ht
    · exact hs t ht
    · rw [List.mem_singleton] at ht; subst ht; exact hp

theorem g_mulIntoAdd (hK : Agree B K K') {ts : List (Expr F)} {c r : Expr F} (ht : ∀ t ∈ ts, O t) (hc : O c)
    (h : mulIntoAdd K ts c = .ok r) : mulIntoAdd K' ts c = .ok r ∧ O r := by
  unfold mulIntoAdd at h ⊢
  split at h
  · cases h
  · rename_i rs hrs
    obtain ⟨h1, h2⟩ := g_mapRes (B := B) (f' := fun t => K'.mul [t, c]) hrs fun t htm b hb => hK.mul _ _ (o2 (ht t htm) hc) hb
    simp only [h1]
    exact hK.add _ _ h2 h

theorem g_finishProduct (hK : Agree B K K') {c r : Expr F} {args : List (Expr F)} (hc : O c) (ha : ∀ t ∈ args, O t)
    (h : finishProduct K c args = .ok r) : finishProduct K' c args = .ok r ∧ O r := by
  unfold finishProduct at h ⊢
  by_cases h0 : (isInt 0 c || isUndef c) = true
  · rw [if_pos h0] at h ⊢; cases h; exact ⟨rfl, hc⟩
  · rw [if_neg h0] at h ⊢
    have h1 : ∀ t ∈ args ++ [c], O t := by
      intro t ht
      rcases List.mem_append.1 ht with ht | ht
      · exact ha t ht
      · rw [List.mem_singleton] at ht; subst ht; exact hc
    split at h
    · rename_i h2
      exact g_mulIntoAdd hK (oAdd.1 (ha _ (by simp))) hc h
    · rename_i h2
      cases h
      exact ⟨rfl, o_maybeNewMul ha⟩
    · rename_i h2 h3
      cases h
      exact ⟨rfl, o_maybeNewMul h1⟩

theorem g_createProduct (hK : Agree B K K') {p : MulParts F} {r : Expr F} (hp : OM B p.terms) (h : createProduct K p = .ok r) :
    createProduct K' p = .ok r ∧ O r := by
  unfold createProduct at h ⊢
  split at h
  · cases h
  · rename_i st hst
    have h1 : foldRes (createStep K') (p.coeff, []) (p.terms.filter (fun be => !isInt 0 be.2)) = .ok st ∧ ∀ t ∈ st.2, O t := by
      refine g_fold (f := createStep K) (Q := fun s : CreateSt F => ∀ t ∈ s.2, O t)
        (R := fun be : Expr F × Expr F => (O be.1 ∧ O be.2) ∧ TermArgs B be.1 be.2) ?_ (by simp) (fun be hbe => hp be (List.mem_filter.1 hbe).1) hst
      intro s be s1 hs hbe h1
      unfold createStep at h1 ⊢
      split at h1
      · cases h1
      · rename_i pw hpw
        obtain ⟨k1, k2⟩ := hK.pow _ _ _ hbe.1.1 hbe.1.2 hbe.2 hpw
        simp only [k1]
        exact ⟨h1, o_collectPower hs k2 h1⟩
    simp only [h1.1]
    split at h
    · cases h
    · rename_i c hc
      exact g_finishProduct hK (o_toExpr hc) h1.2 h

theorem g_productGeneral (hK : Agree B K K') (hl : SameLic lic lic') {ts : List (Expr F)} {r : Expr F} (ht : ∀ t ∈ ts, O t)
    (h : productGeneral K lic ts = .ok r) : productGeneral K' lic' ts = .ok r ∧ O r := by
  unfold productGeneral at h ⊢
  split at h
  · cases h
  · rename_i p hp
    obtain ⟨h1, h2⟩ := g_fold (f' := mulVisit K' lic') (Q := fun p : MulParts F => OM B p.terms) (R := O) (fun s a s1 => g_mulVisit hK hl s a s1)
      (by simp [OM]) ht hp
    simp only [h1]
    exact g_createProduct hK h2 h

theorem g_mulFrom (hK : Agree B K K') (hl : SameLic lic lic') (ts : List (Expr F)) (r : Expr F) (ht : ∀ t ∈ ts, O t) (h : mulFrom K lic ts = .ok r) :
    mulFrom K' lic' ts = .ok r ∧ O r := by
  unfold mulFrom at h ⊢
  split at h
  · cases h
  · cases h; exact ⟨rfl, ht _ (by simp)⟩
  · rename_i a b
    have ha := ht a (by simp)
    have hb := ht b (by simp)
    show mulTwo K' lic' a b = _ ∧ _
    unfold mulTwo at h ⊢
    split at h
    · split at h
      · rename_i hn
        rw [if_pos hn]
        exact g_mulIntoAdd hK (oAdd.1 ha) hb h
      · rename_i hn
        rw [if_neg hn]
        exact g_productGeneral hK hl ht h
    · split at h
      · rename_i hn
        simp only [hn]
        exact g_mulIntoAdd hK (oAdd.1 hb) ha h
      · rename_i hn
        simp only [hn]
        exact g_productGeneral hK hl ht h
    · exact g_productGeneral hK hl ht h
  · exact g_productGeneral hK hl ht h

/-! ## Numbers stay numbers -/

/-- The coefficients of integers and rational numbers. -/
def NumCoeff : Coeff F → Prop
  | .int _ => True
  | .rat _ => True
  | _ => False

theorem num_intCoeff {x : Res Int} {c : Coeff F} (h : intCoeff x = .ok c) : NumCoeff c := by
  cases x <;> cases h
  trivial

theorem num_ratCoeff {x : Res RatC} {c : Coeff F} (h : ratCoeff x = .ok c) : NumCoeff c := by
  cases x <;> cases h
  trivial

theorem add_num {x y c : Coeff F} (hx : NumCoeff x) (hy : NumCoeff y) (h : addCoeff x y = .ok c) : NumCoeff c := by
  cases x <;> cases y <;> first | exact hx.elim | exact hy.elim | skip
  all_goals
    unfold addCoeff at h
    first | exact num_intCoeff h | exact num_ratCoeff h

theorem mul_num {x y c : Coeff F} (hx : NumCoeff x) (hy : NumCoeff y) (h : mulCoeff x y = .ok c) : NumCoeff c := by
  cases x <;> cases y <;> first | exact hx.elim | exact hy.elim | skip
  all_goals
    unfold mulCoeff at h
    first | exact num_intCoeff h | exact num_ratCoeff h

theorem num_toExpr {c : Coeff F} {r : Expr F} (hc : NumCoeff c) (h : c.toExpr = .ok r) : isRatConst r = true := by
  cases c with
  | int n => cases h; rfl
  | rat q => exact (o_ratExpr (B := fun _ => True) h).2
  | flt f => exact hc.elim
  | undef => exact hc.elim
  | zoo => exact hc.elim

theorem num_ofExpr {e : Expr F} (h : isRatConst e = true) : ∃ c, Coeff.ofExpr e = some c ∧ NumCoeff c := by
  unfold isRatConst at h
  split at h
  · exact ⟨_, rfl, trivial⟩
  · exact ⟨_, rfl, trivial⟩
  · cases h

theorem add_rat {a b r : Expr F} (ha : isRatConst a = true) (hb : isRatConst b = true) (h : addFrom K [a, b] = .ok r) : isRatConst r = true := by
  obtain ⟨x, hx, hxn⟩ := num_ofExpr ha
  obtain ⟨y, hy, hyn⟩ := num_ofExpr hb
  change (match addTwo a b with | .error e => _ | .ok (some r) => _ | .ok none => _) = _ at h
  unfold addTwo at h
  rw [hx, hy] at h
  cases hc : addCoeff x y with
  | error e => simp [hc] at h
  | ok c =>
    cases he : c.toExpr with
    | error e => simp [hc, he] at h
    | ok q =>
      simp only [hc, he, Except.ok.injEq] at h
      subst h
      exact num_toExpr (add_num hxn hyn hc) he

theorem add_int {a b r : Expr F} (ha : IntExp a) (hb : IntExp b) (h : addFrom K [a, b] = .ok r) : IntExp r := by
  obtain ⟨n, rfl, hn⟩ := ha
  obtain ⟨m, rfl, hm⟩ := hb
  unfold addFrom addTwo at h
  simp only [Coeff.ofExpr, addCoeff, intCoeff] at h
  cases hc : cadd n m with
  | error e => simp [hc] at h
  | ok k =>
    simp only [hc, Coeff.toExpr, Except.ok.injEq] at h
    subst h
    exact ⟨k, rfl, (cadd_ok hn hm hc).2⟩

/-- The product of two constants. -/
theorem mul_two_num {a b r : Expr F} {x y : Coeff F} (ha : isRatConst a = true) (hb : isRatConst b = true) (hx : Coeff.ofExpr a = some x)
    (hy : Coeff.ofExpr b = some y) (h : mulFrom K lic [a, b] = .ok r) :
    ∃ c d, mulCoeff (.int 1) x = .ok c ∧ mulCoeff c y = .ok d ∧ d.toExpr = .ok r := by
  have h1 : productGeneral K lic [a, b] = .ok r := by
    unfold isRatConst at ha hb
    split at ha
    · split at hb
      · exact h
      · exact h
      · cases hb
    · split at hb
      · exact h
      · exact h
      · cases hb
    · cases ha
  have hf : ∀ (e : Expr F) (z : Coeff F) (p : MulParts F), isRatConst e = true → Coeff.ofExpr e = some z →
      mulVisit K lic p e = match mulCoeff p.coeff z with | .error e => .error e | .ok c => .ok { p with coeff := c } := by
    intro e z p he hz
    have : flatMul e = [e] := by
      unfold isRatConst at he
      split at he
      · rfl
      · rfl
      · cases he
    unfold mulVisit
    rw [this]
    unfold foldRes mulTerm
    rw [hz]
    cases h2 : mulCoeff p.coeff z <;> simp [h2, foldRes]
  unfold productGeneral at h1
  cases hc : mulCoeff (.int 1) x with
  | error e => simp [foldRes, hf a x _ ha hx, hc] at h1
  | ok c =>
    cases hd : mulCoeff c y with
    | error e => simp [foldRes, hf a x _ ha hx, hf b y _ hb hy, hc, hd] at h1
    | ok d =>
      refine ⟨c, d, rfl, hd, ?_⟩
      simp only [foldRes, hf a x _ ha hx, hf b y _ hb hy, hc, hd] at h1
      unfold createProduct at h1
      change (match d.toExpr with | .error e => _ | .ok q => finishProduct K q []) = _ at h1
      cases he : d.toExpr with
      | error e => rw [he] at h1; cases h1
      | ok q =>
        rw [he] at h1
        change finishProduct K q [] = _ at h1
        unfold finishProduct at h1
        split at h1
        · exact h1
        · cases h2 : isInt 1 q with
          | true =>
            rw [h2] at h1
            rw [isInt_iff.1 h2]
            exact h1
          | false =>
            rw [h2] at h1
            exact h1

theorem mul_rat {a b r : Expr F} (ha : isRatConst a = true) (hb : isRatConst b = true) (h : mulFrom K lic [a, b] = .ok r) : isRatConst r = true := by
  obtain ⟨x, hx, hxn⟩ := num_ofExpr ha
  obtain ⟨y, hy, hyn⟩ := num_ofExpr hb
  obtain ⟨c, d, hc, hd, hr⟩ := mul_two_num ha hb hx hy h
  exact num_toExpr (mul_num (mul_num (x := .int 1) trivial hxn hc) hyn hd) hr

theorem mul_int {a b r : Expr F} (ha : IntExp a) (hb : IntExp b) (h : mulFrom K lic [a, b] = .ok r) : IntExp r := by
  obtain ⟨n, rfl, hn⟩ := ha
  obtain ⟨m, rfl, hm⟩ := hb
  obtain ⟨c, d, hc, hd, hr⟩ := mul_two_num rfl rfl rfl rfl h
  simp only [mulCoeff, intCoeff] at hc
  cases h1 : cmul 1 n with
  | error e => simp [h1] at hc
  | ok k =>
    simp only [h1, Except.ok.injEq] at hc
    subst hc
    simp only [mulCoeff, intCoeff] at hd
    cases h2 : cmul k m with
    | error e => simp [h2] at hd
    | ok l =>
      simp only [h2, Except.ok.injEq] at hd
      subst hd
      cases hr
      exact ⟨l, rfl, (cmul_ok (cmul_ok (by decide) hn h1).2 hm h2).2⟩

/-! ## All constructors -/

theorem agree_step (hK : Agree B K K') (hl : SameLic lic lic') : Agree B (step lic K) (step lic' K') where
  simple := hK.simple
  ints := hK.ints
  add := g_addFrom hK
  mul := g_mulFrom hK hl
  pow := g_powCreate hK hl
  visit := g_mulVisit hK hl
  addInt _ _ _ := add_int
  addRat _ _ _ := add_rat
  mulInt _ _ _ := mul_int
  mulRat _ _ _ := mul_rat

/-- The constructors do not depend on the answers to the sign questions. -/
theorem ctors_agree (hB : ∀ b, B b → simpleBase b = true) (hi : ∀ n m : Int, B (.int n) → B (.int m)) (hl : SameLic lic lic') : ∀ n, Agree B (ctors lic n) (ctors lic' n)
  | 0 => by
    constructor
    · exact hB
    · exact hi
    all_goals (intros; rename_i h; cases h)
  | n + 1 => agree_step (ctors_agree hB hi hl n) hl

open Classical in
/-- Only the sign question that is answered by an integer exponent is answered with yes. -/
noncomputable def sureLic : Lic F where
  mulExp _ _ := false
  nonneg _ := false
  expReal _ := false
  floatPow _ y := decide (∃ n : Int, InI64 n ∧ y = FloatOps.ofInt n)

theorem sureLic_true (ρ : Env F) : (sureLic : Lic F).TrueAt ρ where
  mulExp _ _ h := by simp [sureLic] at h
  nonneg _ h := by simp [sureLic] at h
  expReal _ h := by simp [sureLic] at h
  floatPow a b h x y _ hy := by
    simp only [sureLic, decide_eq_true_eq] at h
    obtain ⟨n, hn, rfl⟩ := h
    rw [FloatSem.val_ofInt n hn] at hy
    cases hy
    exact Or.inr ⟨n, rfl⟩

open Classical in
theorem sameLic_sure : SameLic (codeLic : Lic F) sureLic := by
  intro x n hn
  simp only [codeLic, sureLic]
  symm
  rw [decide_eq_true_eq]
  exact ⟨n, hn, rfl⟩

/-- The code's constructors use the power rules only where they are laws. -/
theorem code_agrees (hB : ∀ b, B b → simpleBase b = true) (hi : ∀ n m : Int, B (.int n) → B (.int m)) (n : Nat) :
    Agree B (ctors (codeLic : Lic F) n) (ctors sureLic n) := ctors_agree hB hi sameLic_sure n

theorem int_agrees (n : Nat) : Agree (fun _ => False) (ctors (codeLic : Lic F) n) (ctors sureLic n) := code_agrees (fun _ h => h.elim) (fun _ _ h => h) n

theorem safe_agrees (n : Nat) : Agree (fun b => simpleBase b = true) (ctors (codeLic : Lic F) n) (ctors sureLic n) :=
  code_agrees (fun _ h => h) (fun _ _ _ => rfl) n

theorem plain_agrees (n : Nat) : Agree (fun b => plainBase b = true) (ctors (codeLic : Lic F) n) (ctors sureLic n) := by
  refine code_agrees (fun b h => ?_) (fun _ _ _ => rfl) n
  unfold plainBase at h
  split at h
  · rfl
  · cases h
  · rename_i h1 _ _ _
    cases h1 <;> first | rfl | cases h
    simp_all

end Wf.Sym
