import Verif.Sym.RebuildModel
import Verif.Sym.RelationLemmas

/-!
# Making a node again from new children keeps the value

The children may have been evaluated in another assignment (`ρ'`) than the new children (`ρ`), as they are for a substitution.
-/

namespace Wf.Sym
open Complex

variable {F : Type} [DecidableEq F] [FnSem F]

/-- The heads of inner nodes whose value is determined by the values of the children. -/
def Head.interpreted : Head F → Bool
  | .mul | .add | .pow | .fn _ | .symfn _ | .uneval | .stop | .iverson | .cond | .rel _ => true
  | _ => false

theorem eval_symfn (ρ : Env F) (n : String) (as : List (Expr F)) : eval ρ (.symfn n as) = (seqO (as.map (eval ρ))).bind (ρ.symfn n) := by
  rw [eval, evals_eq]; rfl
theorem eval_uneval (ρ : Env F) (x : Expr F) : eval ρ (.uneval x) = eval ρ x := by rw [eval]; rfl
theorem eval_stop (ρ : Env F) (x : Expr F) : eval ρ (.stop x) = eval ρ x := by rw [eval]; rfl

theorem good_plain {h : Head F} {as : List (Expr F)} (hn : GoodNode h as) (ha : ∀ t ∈ as, Good t) : Good (.node h as) := good_node.2 ⟨hn, ha⟩

theorem good_unevalCreate {x : Expr F} (hx : Good x) : Good (unevalCreate x) := by
  unfold unevalCreate
  split
  · exact hx
  · exact good_plain trivial (by simpa using hx)

theorem good_stopCreate {x : Expr F} (hx : Good x) : Good (stopCreate x) := by
  unfold stopCreate
  split
  · exact hx
  · exact good_plain trivial (by simpa using hx)

theorem eval_unevalCreate (ρ : Env F) (x : Expr F) : eval ρ (unevalCreate x) = eval ρ x := by
  unfold unevalCreate
  split
  · rfl
  · exact eval_uneval ρ x

theorem eval_stopCreate (ρ : Env F) (x : Expr F) : eval ρ (stopCreate x) = eval ρ x := by
  unfold stopCreate
  split
  · rfl
  · exact eval_stop ρ x

theorem good_iversonFn {c : Expr F} (hc : Good c) : Good (iversonFn c) := by
  unfold iversonFn
  split
  · exact good_one
  · exact good_zero
  · exact good_iverson.2 hc

theorem eval_iversonFn (ρ : Env F) (c : Expr F) : eval ρ (iversonFn c) = eval ρ c := by
  unfold iversonFn
  split
  · rw [eval_int, eval_bconst]; simp
  · rw [eval_int, eval_bconst]; simp
  · exact eval_iverson ρ c

section
variable {lic : Lic F} {ρ ρ' : Env F} {K : Ctors F}

/-- The new expression has, in `ρ`, the value the old one has in `ρ'`. -/
abbrev Carries (lic : Lic F) (ρ' ρ : Env F) (a b : Expr F) : Prop := FnOk lic ρ b (eval ρ' a)

theorem carries_good {as bs : List (Expr F)} (h : List.Forall₂ (Carries lic ρ' ρ) as bs) : ∀ t ∈ bs, Good t := by
  induction h with
  | nil => simp
  | cons h1 _ ih => simpa using ⟨h1.1, ih⟩

theorem carries_sum {as bs : List (Expr F)} (h : List.Forall₂ (Carries lic ρ' ρ) as bs) (ht : lic.TrueAt ρ) (z : ℂ)
    (hz : sumO (as.map (eval ρ')) = some z) : sumO (bs.map (eval ρ)) = some z := by
  induction h generalizing z with
  | nil => exact hz
  | cons h1 _ ih =>
    rw [List.map_cons, sumO_cons] at hz ⊢
    obtain ⟨x, y, hx, hy, rfl⟩ := addO_eq_some.1 hz
    rw [h1.2 ht x hx, ih y hy]; rfl

theorem carries_prod {as bs : List (Expr F)} (h : List.Forall₂ (Carries lic ρ' ρ) as bs) (ht : lic.TrueAt ρ) (z : ℂ)
    (hz : prodO (as.map (eval ρ')) = some z) : prodO (bs.map (eval ρ)) = some z := by
  induction h generalizing z with
  | nil => exact hz
  | cons h1 _ ih =>
    rw [List.map_cons, prodO_cons] at hz ⊢
    obtain ⟨x, y, hx, hy, rfl⟩ := mulO_eq_some.1 hz
    rw [h1.2 ht x hx, ih y hy]; rfl

theorem carries_seq {as bs : List (Expr F)} (h : List.Forall₂ (Carries lic ρ' ρ) as bs) (ht : lic.TrueAt ρ) (z : List ℂ)
    (hz : seqO (as.map (eval ρ')) = some z) : seqO (bs.map (eval ρ)) = some z := by
  induction h generalizing z with
  | nil => exact hz
  | @cons a b as bs h1 _ ih =>
    simp only [List.map_cons, seqO] at hz ⊢
    cases ha : eval ρ' a with
    | none => simp [ha] at hz
    | some x =>
      simp only [ha, Option.bind_some] at hz
      cases hs : seqO (as.map (eval ρ')) with
      | none => simp [hs] at hz
      | some y =>
        simp only [hs, Option.map_some, Option.some.injEq] at hz
        rw [h1.2 ht x ha, ih y hs, ← hz]; rfl

theorem condO_carry {c a b c' a' b' : Option ℂ} (hc : ∀ z, c = some z → c' = some z) (ha : ∀ z, a = some z → a' = some z)
    (hb : ∀ z, b = some z → b' = some z) (z : ℂ) (hz : condO c a b = some z) : condO c' a' b' = some z := by
  cases c with
  | none => simp [condO] at hz
  | some w =>
    rw [hc w rfl]
    simp only [condO, Option.bind_some] at hz ⊢
    split_ifs at hz ⊢
    · exact ha z hz
    · exact hb z hz

/-- Making a node again keeps the value. -/
theorem rebuild_ok (hK : Sound lic ρ K) (hs : ρ'.symfn = ρ.symfn) {m : Nat} {h : Head F} {as bs : List (Expr F)} {r : Expr F}
    (hi : h.interpreted = true) (hab : List.Forall₂ (Carries lic ρ' ρ) as bs) (hr : rebuild K m h bs = .ok r) :
    Carries lic ρ' ρ (.node h as) r := by
  have hg := carries_good hab
  cases h with
  | add =>
    have h1 := hK.add bs r hg hr
    exact ⟨h1.1, fun ht z hz => h1.2 ht z (carries_sum hab ht z (by rw [← eval_add]; exact hz))⟩
  | mul =>
    have h1 := hK.mul bs r hg hr
    exact ⟨h1.1, fun ht z hz => h1.2 ht z (carries_prod hab ht z (by rw [← eval_mul]; exact hz))⟩
  | pow =>
    cases hab with
    | nil => cases hr
    | cons h1 hab =>
      cases hab with
      | nil => cases hr
      | cons h2 hab =>
        cases hab with
        | cons h3 hab => cases hr
        | nil =>
          have h3 := hK.pow _ _ r h1.1 h2.1 hr
          refine ⟨h3.1, fun ht z hz => h3.2 ht z ?_⟩
          rw [eval_pow] at hz
          obtain ⟨x, y, hx, hy, hv⟩ := powO_eq_some.1 hz
          rw [h1.2 ht x hx, h2.2 ht y hy]; exact hv
  | fn f =>
    cases hab with
    | nil => cases f <;> cases hr
    | @cons a b _ _ h1 hab =>
      cases hab with
      | nil =>
        have hr' : fns K m f b = .ok r := by cases f <;> exact hr
        have h2 := fns_ok hK m f b r h1.1 hr'
        refine ⟨h2.1, fun ht z hz => h2.2 ht z ?_⟩
        rw [eval_fn1, fn1] at hz
        cases ha : eval ρ' a with
        | none => simp [ha] at hz
        | some x => rw [fn1, h1.2 ht x ha]; simpa [ha] using hz
      | @cons a2 b2 _ _ h2 hab =>
        cases hab with
        | cons h3 hab => cases f <;> cases hr
        | nil =>
          have hf : f = .arctan2 := by cases f <;> first | rfl | cases hr
          subst hf
          have h3 := atan2Fn_ok hK h1.1 h2.1 hr
          refine ⟨h3.1, fun ht z hz => h3.2 ht z ?_⟩
          rw [eval_arctan2, atan2Val] at hz
          cases ha : eval ρ' a with
          | none => simp [ha] at hz
          | some x =>
            cases ha2 : eval ρ' a2 with
            | none => simp [ha, ha2] at hz
            | some y => rw [atan2Val, h1.2 ht x ha, h2.2 ht y ha2]; simpa [ha, ha2] using hz
  | symfn n =>
    cases hr
    refine ⟨good_plain trivial hg, fun ht z hz => ?_⟩
    rw [eval_symfn] at hz ⊢
    cases hq : seqO (as.map (eval ρ')) with
    | none => simp [hq] at hz
    | some vs => rw [carries_seq hab ht vs hq, ← hs]; simpa [hq] using hz
  | uneval =>
    cases hab with
    | nil => cases hr
    | cons h1 hab =>
      cases hab with
      | cons h2 hab => cases hr
      | nil =>
        cases hr
        exact ⟨good_unevalCreate h1.1, fun ht z hz => by rw [eval_uneval] at hz; rw [eval_unevalCreate]; exact h1.2 ht z hz⟩
  | stop =>
    cases hab with
    | nil => cases hr
    | cons h1 hab =>
      cases hab with
      | cons h2 hab => cases hr
      | nil =>
        cases hr
        exact ⟨good_stopCreate h1.1, fun ht z hz => by rw [eval_stop] at hz; rw [eval_stopCreate]; exact h1.2 ht z hz⟩
  | iverson =>
    cases hab with
    | nil => cases hr
    | cons h1 hab =>
      cases hab with
      | cons h2 hab => cases hr
      | nil =>
        cases hr
        exact ⟨good_iversonFn h1.1, fun ht z hz => by rw [eval_iverson] at hz; rw [eval_iversonFn]; exact h1.2 ht z hz⟩
  | cond =>
    cases hab with
    | nil => cases hr
    | cons h1 hab =>
      cases hab with
      | nil => cases hr
      | cons h2 hab =>
        cases hab with
        | nil => cases hr
        | cons h3 hab =>
          cases hab with
          | cons h4 hab => cases hr
          | nil =>
            cases hr
            refine ⟨condCreate_good h1.1 h2.1 h3.1, fun ht z hz => condCreate_ok ρ _ _ _ z ?_⟩
            rw [eval_cond] at hz
            exact condO_carry (h1.2 ht) (h2.2 ht) (h3.2 ht) z hz
  | rel op =>
    cases hab with
    | nil => cases hr
    | @cons a _ _ _ h1 hab =>
      cases hab with
      | nil => cases hr
      | @cons a2 _ _ _ h2 hab =>
        cases hab with
        | cons h3 hab => cases hr
        | nil =>
          have h3 := relCreate_ok ρ h1.1 h2.1 hr
          refine ⟨h3.1, fun ht z hz => h3.2 z ?_⟩
          rw [eval_rel, relO] at hz
          cases ha : eval ρ' a with
          | none => simp [ha] at hz
          | some x =>
            cases ha2 : eval ρ' a2 with
            | none => simp [ha, ha2] at hz
            | some y => rw [relO, h1.2 ht x ha, h2.2 ht y ha2]; simpa [ha, ha2] using hz
  | _ => cases hi

theorem mapRes_forall {α β : Type} {f : α → Res β} {P : α → β → Prop} {as : List α} {bs : List β} (h : mapRes f as = .ok bs)
    (hf : ∀ a ∈ as, ∀ b, f a = .ok b → P a b) : List.Forall₂ P as bs := by
  induction as generalizing bs with
  | nil => cases h; exact .nil
  | cons a as ih =>
    unfold mapRes at h
    cases ha : f a with
    | error e => simp [ha] at h
    | ok b =>
      cases hm : mapRes f as with
      | error e => simp [ha, hm] at h
      | ok cs =>
        simp only [ha, hm, Except.ok.injEq] at h
        subst h
        exact .cons (hf a (by simp) b ha) (ih hm fun x hx => hf x (by simp [hx]))

theorem mapCond_ok {R : Expr F → Res (Expr F)} {c a b r : Expr F} (hR : ∀ x ∈ [c, a, b], ∀ y, R x = .ok y → Carries lic ρ' ρ x y)
    (h : mapCond R c a b = .ok r) : Carries lic ρ' ρ (.cond c a b) r := by
  unfold mapCond at h
  cases hc : R c with
  | error e => simp [hc] at h
  | ok c' =>
    have h1 := hR c (by simp) c' hc
    simp only [hc] at h
    split_ifs at h with ht hf
    · have h2 := hR a (by simp) r h
      refine ⟨h2.1, fun hl z hz => h2.2 hl z ?_⟩
      rw [eval_cond] at hz
      cases hv : eval ρ' c with
      | none => simp [hv, condO] at hz
      | some w =>
        have h3 := h1.2 hl w hv
        rw [eq_of_identical ht, eval_bconst] at h3
        simp only [if_true, Option.some.injEq] at h3
        simpa [hv, condO, ← h3] using hz
    · have h2 := hR b (by simp) r h
      refine ⟨h2.1, fun hl z hz => h2.2 hl z ?_⟩
      rw [eval_cond] at hz
      cases hv : eval ρ' c with
      | none => simp [hv, condO] at hz
      | some w =>
        have h3 := h1.2 hl w hv
        rw [eq_of_identical hf, eval_bconst] at h3
        simp only [Bool.false_eq_true, if_false, Option.some.injEq] at h3
        simpa [hv, condO, ← h3] using hz
    · cases ha : R a with
      | error e => simp [ha] at h
      | ok a' =>
        cases hb : R b with
        | error e => simp [ha, hb] at h
        | ok b' =>
          simp only [ha, hb, Except.ok.injEq] at h
          subst h
          have h2 := hR a (by simp) a' ha
          have h3 := hR b (by simp) b' hb
          refine ⟨condCreate_good h1.1 h2.1 h3.1, fun hl z hz => condCreate_ok ρ _ _ _ z ?_⟩
          rw [eval_cond] at hz
          exact condO_carry (h1.2 hl) (h2.2 hl) (h3.2 hl) z hz

theorem mapChildren_node (K : Ctors F) (m : Nat) (R : Expr F → Res (Expr F)) (h : Head F) (as : List (Expr F)) (hc : ∀ c a b, Expr.node h as ≠ Expr.cond c a b) :
    mapChildren K m R (.node h as) = match mapRes R as with
      | .error e => .error e
      | .ok bs => rebuild K m h bs := by
  unfold mapChildren
  split
  · rename_i c a b heq; exact absurd heq (hc c a b)
  · rename_i h' as' _ heq; cases heq; rfl

/-- `map_children` keeps the value if the operation does on the children. -/
theorem mapChildren_ok (hK : Sound lic ρ K) (hs : ρ'.symfn = ρ.symfn) {m : Nat} {R : Expr F → Res (Expr F)} {h : Head F} {as : List (Expr F)} {r : Expr F}
    (hi : h.interpreted = true) (hR : ∀ x ∈ as, ∀ y, R x = .ok y → Carries lic ρ' ρ x y) (hr : mapChildren K m R (.node h as) = .ok r) :
    Carries lic ρ' ρ (.node h as) r := by
  by_cases hc : ∃ c a b, Expr.node h as = Expr.cond c a b
  · obtain ⟨c, a, b, he⟩ := hc
    cases he
    exact mapCond_ok hR hr
  · rw [mapChildren_node _ _ _ _ _ fun c a b he => hc ⟨c, a, b, he⟩] at hr
    cases hm : mapRes R as with
    | error e => simp [hm] at hr
    | ok bs =>
      simp only [hm] at hr
      exact rebuild_ok hK hs hi (mapRes_forall hm hR) hr
end

end Wf.Sym
