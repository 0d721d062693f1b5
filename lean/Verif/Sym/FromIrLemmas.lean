import Verif.Sym.FromIrModel
import Verif.Sym.LowerOutput
import Verif.Sym.CseLemmas
import Verif.Sym.NumberSetLemmas
import Verif.Gen.PartialSpec

/-!
# Expressions from the intermediate form have the values of the program

The program is run in arithmetic with undefined values, in which every operation is undefined where its name has no value.
-/

namespace Wf.Sym
open Complex
open Wf.Gen (Prim Graph Op Load Interp Partial)

variable {F : Type} [DecidableEq F] [FnSem F]

/-! ## Strict interpretations -/

/-- The value of a library function. -/
noncomputable def callVal (k : Nat) (zs : List ℂ) : Option ℂ :=
  match stdOf k, zs with
  | some .powi, [a, b] => powVal a b
  | some .powf, [a, b] => powVal a b
  | some .sqrt, [a] => powVal a (1 / 2)
  | some (.fn f), zs => fnVal f zs
  | _, _ => none

/-- The quotient. -/
noncomputable def divVal (a b : Option ℂ) : Option ℂ := a.bind fun x => b.bind fun y => if y = 0 then none else some (x / y)

/-- The value of a comparison. -/
noncomputable def cmpVal (k : Nat) (a b : Option ℂ) : Option ℂ := (relWithCode k).bind fun r => a.bind fun x => b.bind fun y => relVal r x y

/-- The value of an operation, if there is one; matrices are numbered by `num`. -/
noncomputable def strictVal (num : Nat → List ℂ → ℂ) (ρ : Env F) (leaves : List (Expr F)) : Op → List (Partial ℂ) → Partial ℂ
  | .add, l => l.sum
  | .mul, l => l.prod
  | .neg, [x] => -x
  | .copy, [x] => x
  | .cast _, [x] => x
  | .div, [a, b] => divVal a b
  | .cond, [c, a, b] => condO c a b
  | .load (.int n), _ => n
  | .load (.other k), _ => (leaves[k]?).bind (eval ρ)
  | .compare k, [a, b] => cmpVal k a b
  | .callStd k, l => (Partial.all l).bind (callVal k)
  | .construct t, l => (Partial.all l).map (num t)
  | _, _ => Partial.undefined

/-- Run with undefined values. -/
noncomputable def strictInterp (num : Nat → List ℂ → ℂ) (ρ : Env F) (leaves : List (Expr F)) : Interp (Partial ℂ) where
  f := strictVal num ρ leaves
  add _ := rfl
  mul _ := rfl
  neg _ := rfl
  copy _ := rfl
  int _ := rfl
  cast _ _ := rfl

theorem stdOf_code (f : Std) : stdOf f.code = some f := by
  rcases f with f | _ | _ | _
  · cases f <;> rfl
  all_goals rfl

theorem relWithCode_code (r : RelOp) : relWithCode (relCode r) = some r := by cases r <;> rfl

/-- Every operation computes what its name says. -/
theorem strict_agrees (num : Nat → List ℂ → ℂ) (ρ : Env F) (leaves : List (Expr F)) : AgreesIn Partial.num (strictInterp num ρ leaves) ρ leaves where
  num := ⟨rfl, rfl, fun _ _ => rfl, fun _ _ => rfl, fun _ => rfl⟩
  leaf k e z h1 h2 := by
    show (leaves[k]?).bind (eval ρ) = some z
    rw [h1]; exact h2
  fn f zs z h := by
    show (Partial.all (zs.map Partial.num)).bind (callVal _) = some z
    rw [Partial.all_num]
    show callVal _ zs = some z
    unfold callVal
    rw [stdOf_code]
    exact h
  sqrt a z h := by
    show callVal Std.sqrt.code [a] = some z
    unfold callVal
    rw [stdOf_code]
    exact h
  powf a b z h := by
    show callVal Std.powf.code [a, b] = some z
    unfold callVal
    rw [stdOf_code]
    exact h
  powi a n z h := by
    show callVal Std.powi.code [a, (n : ℂ)] = some z
    unfold callVal
    rw [stdOf_code]
    exact h
  div a b h := by
    show divVal (some a) (some b) = some (a / b)
    simp [divVal, h]
  condTrue a b := by
    show condO (some 1) a b = a
    exact if_pos rfl
  condFalse a b := by
    show condO (some 0) a b = b
    exact (if_neg (by simp)).trans (if_pos rfl)
  rel op a b z h := by
    show cmpVal (relCode op) (some a) (some b) = some z
    simp [cmpVal, relWithCode_code, h]
  toFloat _ := rfl

/-! ## One operation -/

/-- The expression or matrix has the value `x`, if that is defined. -/
def Stands (lic : Lic F) (ρ : Env F) (num : Nat → List ℂ → ℂ) (x : Option ℂ) : Rebuilt F → Prop
  | .expr e => FnOk lic ρ e x
  | .matrix r c es => lic.TrueAt ρ → ∀ z, x = some z → ∃ zs : List ℂ, List.Forall₂ (fun e z => eval ρ e = some z) es zs ∧ z = num (matrixCode r c) zs

/-- An assignment that gives variables the values of the program. -/
def valEnv (ρ : Env F) (R : Nat → Option ℂ) : Env F where
  leaf h := match h with
    | .uniq i _ => R i
    | _ => none
  symfn := ρ.symfn
  opaq _ _ := none

/-- A variable for a value of the program. -/
def slot (v : Nat) : Expr F := .node (.uniq v .unknown) []

theorem eval_slot (ρ : Env F) (R : Nat → Option ℂ) (v : Nat) : eval (valEnv ρ R) (slot v) = R v := by
  rw [slot, eval]; rfl

theorem evals_slots (ρ : Env F) (R : Nat → Option ℂ) (vs : List Nat) : (vs.map slot).map (eval (valEnv ρ R)) = vs.map R := by
  rw [List.map_map]
  exact List.map_congr_left fun v _ => eval_slot ρ R v

section
variable {lic : Lic F} {ρ ρ' : Env F} {K : Ctors F} {R : Nat → Option ℂ} {num : Nat → List ℂ → ℂ} {s : FromIr F}

/-- What is known about the state. -/
structure Known (lic : Lic F) (ρ : Env F) (num : Nat → List ℂ → ℂ) (R : Nat → Option ℂ) (s : FromIr F) : Prop where
  value : ∀ v r, entry v s.values = some r → Stands lic ρ num (R v) r
  var : ∀ v ∈ s.vars, FnOk lic ρ (irVar v) (R v)

theorem Known.variant (h : Known lic ρ num R s) {v : Nat} {r : Rebuilt F} (hr : s.variant v = .ok r) : Stands lic ρ num (R v) r := by
  unfold FromIr.variant at hr
  cases he : entry v s.values with
  | none => simp [he] at hr
  | some r' =>
    simp only [he, Except.ok.injEq] at hr
    subst hr
    exact h.value v _ he

theorem Known.scalar (h : Known lic ρ num R s) {v : Nat} {e : Expr F} (hr : s.scalar v = .ok e) : Carries lic (valEnv ρ R) ρ (slot v) e := by
  unfold Carries
  rw [eval_slot]
  unfold FromIr.scalar at hr
  by_cases hv : v ∈ s.vars
  · rw [if_pos hv] at hr
    cases hr
    exact h.var v hv
  · rw [if_neg hv] at hr
    cases hw : s.variant v with
    | error e => simp [hw] at hr
    | ok r =>
      have := h.variant hw
      cases r with
      | matrix r c es => simp [hw] at hr
      | expr e' =>
        simp only [hw] at hr
        split at hr
        · cases hr
        · cases hr; exact this

theorem Known.boolean (h : Known lic ρ num R s) {v : Nat} {e : Expr F} (hr : s.boolean v = .ok e) : Carries lic (valEnv ρ R) ρ (slot v) e := by
  unfold Carries
  rw [eval_slot]
  unfold FromIr.boolean at hr
  cases hw : s.variant v with
  | error e => simp [hw] at hr
  | ok r =>
    have := h.variant hw
    cases r with
    | matrix r c es => simp [hw] at hr
    | expr e' =>
      simp only [hw] at hr
      split at hr
      · cases hr; exact this
      · cases hr

theorem Known.scalars (h : Known lic ρ num R s) {vs : List Nat} {es : List (Expr F)} (hr : mapRes s.scalar vs = .ok es) :
    List.Forall₂ (Carries lic (valEnv ρ R) ρ) (vs.map slot) es := by
  rw [List.forall₂_map_left_iff]
  exact mapRes_forall hr fun v _ e he => h.scalar he

theorem exprRes_ok {x : Res (Expr F)} {r : Rebuilt F} (h : exprRes x = .ok r) : ∃ e, x = .ok e ∧ r = .expr e := by
  obtain ⟨e, he, hr⟩ := andThen_ok h
  cases hr
  exact ⟨e, he, rfl⟩

/-- A node made from operands that stand for values of the program. -/
theorem node_stands (hK : Sound lic ρ K) {m : Nat} {h : Head F} {vs : List Nat} {es : List (Expr F)} {e : Expr F} (hi : h.interpreted = true)
    (hab : List.Forall₂ (Carries lic (valEnv ρ R) ρ) (vs.map slot) es) (hr : rebuild K m h es = .ok e) {x : Option ℂ}
    (hx : ∀ z, x = some z → eval (valEnv ρ R) (.node h (vs.map slot)) = some z) : FnOk lic ρ e x := by
  have := rebuild_ok (ρ' := valEnv ρ R) hK rfl hi hab hr
  exact ⟨this.1, fun ht z hz => this.2 ht z (hx z hz)⟩

theorem seqO_all : ∀ l : List (Partial ℂ), Partial.all l = seqO l
  | [] => rfl
  | none :: _ => rfl
  | some z :: l => by
    show (Partial.all l).map (z :: ·) = (seqO l).map (z :: ·)
    rw [seqO_all l]

theorem sum_sumO : ∀ l : List (Partial ℂ), l.sum = sumO l
  | [] => rfl
  | a :: l => by
    rw [List.sum_cons, sum_sumO l]
    show _ = addO a (sumO l)
    generalize sumO l = b
    rcases a with _ | a <;> rcases b with _ | b <;> rfl

theorem prod_prodO : ∀ l : List (Partial ℂ), l.prod = prodO l
  | [] => rfl
  | a :: l => by
    rw [List.prod_cons, prod_prodO l]
    show _ = mulO a (prodO l)
    generalize prodO l = b
    rcases a with _ | a <;> rcases b with _ | b <;> rfl

theorem callOf_ok (hK : Sound lic ρ K) {m k : Nat} {vs : List Nat} {es : List (Expr F)} {e : Expr F}
    (hab : List.Forall₂ (Carries lic (valEnv ρ R) ρ) (vs.map slot) es) (hr : callOf K m k es = .ok e) :
    FnOk lic ρ e ((seqO (vs.map R)).bind (callVal k)) := by
  have pow : ∀ {vs : List Nat} {a b : Expr F} {w : List Nat → Option ℂ}, List.Forall₂ (Carries lic (valEnv ρ R) ρ) (vs.map slot) [a, b] → K.pow a b = .ok e →
      FnOk lic ρ e ((seqO (vs.map R)).bind fun zs => match zs with | [x, y] => powVal x y | _ => none) := by
    intro vs a b _ hab hr
    refine node_stands (m := 0) (h := .pow) hK rfl hab hr fun z hz => ?_
    obtain ⟨zs, hs, hz⟩ := Option.bind_eq_some_iff.1 hz
    rw [eval, evals_eq, evals_slots]
    generalize vs.map R = l at hs
    have hl := seqO_vals hs
    subst hl
    match zs, hz with
    | [x, y], hz => exact hz
  unfold callOf at hr
  unfold callVal
  cases hk : stdOf k with
  | none => simp [hk] at hr
  | some f =>
    simp only [hk] at hr
    cases f with
    | fn f =>
      refine node_stands hK rfl hab hr fun z hz => ?_
      rw [eval, evals_eq, evals_slots]
      obtain ⟨zs, hs, hz⟩ := Option.bind_eq_some_iff.1 hz
      show (seqO _).bind (fnVal f) = some z
      rw [hs]
      exact hz
    | sqrt =>
      match es, hr, hab with
      | [a], hr, hab =>
        obtain ⟨v, rfl⟩ : ∃ v, vs = [v] := by
          have := hab.length_eq
          rw [List.length_map, List.length_singleton] at this
          exact List.length_eq_one_iff.1 this
        have h1 : Carries lic (valEnv ρ R) ρ (slot v) a := by
          cases hab with | cons h _ => exact h
        have hg : Good (.rat ⟨1, 2⟩ : Expr F) := good_node.2 ⟨⟨by simp [RatC.Canonical, InI64_iff], by decide⟩, by simp⟩
        obtain ⟨k1, k2⟩ := hK.pow _ _ _ h1.1 hg hr
        refine ⟨k1, fun ht z hz => k2 ht z ?_⟩
        obtain ⟨zs, hs, hz⟩ := Option.bind_eq_some_iff.1 hz
        have hl := seqO_vals hs
        match zs, hl, hz with
        | [x], hl, hz =>
          have hv : R v = some x := by simpa using hl
          rw [h1.2 ht x (by rw [eval_slot]; exact hv), eval_rat]
          show powVal x _ = some z
          have : (((RatC.val ⟨1, 2⟩ : ℚ)) : ℂ) = 1 / 2 := by simp [RatC.val]
          rw [this]; exact hz
    | powi =>
      match es, hr, hab with
      | [a, b], hr, hab =>
        have := pow (w := fun _ => none) hab hr
        refine ⟨this.1, fun ht z hz => this.2 ht z ?_⟩
        obtain ⟨zs, hs, hz⟩ := Option.bind_eq_some_iff.1 hz
        rw [hs]
        match zs, hz with
        | [x, y], hz => exact hz
    | powf =>
      match es, hr, hab with
      | [a, b], hr, hab =>
        have := pow (w := fun _ => none) hab hr
        refine ⟨this.1, fun ht z hz => this.2 ht z ?_⟩
        obtain ⟨zs, hs, hz⟩ := Option.bind_eq_some_iff.1 hz
        rw [hs]
        match zs, hz with
        | [x, y], hz => exact hz

theorem castOf_ok (h : Known lic ρ num R s) {ty : Nat → Prim} {v : Nat} {e : Expr F} (hr : castOf s ty v = .ok e) : FnOk lic ρ e (R v) := by
  unfold castOf at hr
  by_cases ht : ty v = .boolean
  · rw [if_pos ht] at hr
    obtain ⟨c, hc, hr⟩ := andThen_ok hr
    cases hr
    have := h.boolean hc
    unfold Carries at this
    rw [eval_slot] at this
    exact ⟨good_iversonFn this.1, fun hl z hz => by rw [eval_iversonFn]; exact this.2 hl z hz⟩
  · rw [if_neg ht] at hr
    have := h.scalar hr
    unfold Carries at this
    rw [eval_slot] at this
    exact this

theorem good_divE (hK : Sound lic ρ K) {a b r : Expr F} (ha : Good a) (hb : Good b) (h : divE K a b = .ok r) : Good r := by
  unfold divE at h
  cases hp : K.pow b (.int (-1)) with
  | error e => simp [hp] at h
  | ok p =>
    simp only [hp] at h
    have hg := (hK.pow _ _ _ hb good_negOne hp).1
    exact (hK.mul _ _ (by simpa using ⟨ha, hg⟩) h).1

/-- An operation is converted to an expression with its value. -/
theorem convertOp_ok (hK : Sound lic ρ K) (h : Known lic ρ num R s) {m : Nat} {ty : Nat → Prim} {leaves : List (Expr F)}
    (hl : ∀ e ∈ leaves, FnOk lic ρ e (eval ρ' e)) {op : Op} {args : List Nat} {r : Rebuilt F} (hr : convertOp K m ty leaves s op args = .ok r) :
    Stands lic ρ num (strictVal num ρ' leaves op (args.map R)) r := by
  have two : ∀ {a b : Nat} {x y : Expr F}, s.scalar a = .ok x → s.scalar b = .ok y →
      List.Forall₂ (Carries lic (valEnv ρ R) ρ) ([a, b].map slot) [x, y] := fun hx hy => .cons (h.scalar hx) (.cons (h.scalar hy) .nil)
  have one : ∀ {a : Nat} {x : Expr F}, s.scalar a = .ok x → FnOk lic ρ x (R a) := fun {a x} hx => by
    have := h.scalar hx
    unfold Carries at this
    rwa [eval_slot] at this
  unfold convertOp at hr
  split at hr
  · -- add
    obtain ⟨e, he, rfl⟩ := exprRes_ok hr
    obtain ⟨es, hes, he⟩ := andThen_ok he
    refine node_stands (m := 0) (h := .add) hK rfl (h.scalars hes) he fun z hz => ?_
    rw [eval, evals_eq, evals_slots]
    show sumO _ = some z
    rw [← hz]
    exact (sum_sumO (args.map R)).symm
  · -- mul
    obtain ⟨e, he, rfl⟩ := exprRes_ok hr
    obtain ⟨es, hes, he⟩ := andThen_ok he
    refine node_stands (m := 0) (h := .mul) hK rfl (h.scalars hes) he fun z hz => ?_
    rw [eval, evals_eq, evals_slots]
    show prodO _ = some z
    rw [← hz]
    exact (prod_prodO (args.map R)).symm
  · -- library functions
    rename_i k
    obtain ⟨e, he, rfl⟩ := exprRes_ok hr
    obtain ⟨es, hes, he⟩ := andThen_ok he
    have := callOf_ok hK (h.scalars hes) he
    refine ⟨this.1, fun ht z hz => this.2 ht z ?_⟩
    rw [← hz]
    show _ = (Partial.all (args.map R)).bind (callVal k)
    rw [seqO_all]; rfl
  · -- cast
    obtain ⟨e, he, rfl⟩ := exprRes_ok hr
    exact castOf_ok h he
  · -- comparison
    rename_i k a b
    obtain ⟨e, he, rfl⟩ := exprRes_ok hr
    obtain ⟨x, hx, he⟩ := andThen_ok he
    obtain ⟨y, hy, he⟩ := andThen_ok he
    cases hk : relWithCode k with
    | none => simp [hk] at he
    | some op =>
      simp only [hk] at he
      refine node_stands (m := 0) (h := .rel op) hK rfl (two hx hy) he fun z hz => ?_
      rw [eval, evals_eq, evals_slots]
      rw [← hz]
      show _ = cmpVal k (R a) (R b)
      unfold cmpVal
      rw [hk]; rfl
  · -- matrices
    rename_i t
    obtain ⟨es, hes, he⟩ := andThen_ok hr
    unfold matrixCreate at he
    split at he
    · cases he
      intro ht z hz
      have hc := h.scalars hes
      change (Partial.all (args.map R)).map (num t) = some z at hz
      obtain ⟨zs, hzs, rfl⟩ := Option.map_eq_some_iff.1 hz
      have hl := Partial.all_eq hzs
      refine ⟨zs, ?_, by rw [matrixCode, Nat.pair_unpair]⟩
      clear hr hes hz hzs
      rename_i hlen
      clear hlen
      generalize hvs : args.map slot = as at hc
      induction hc generalizing args zs with
      | nil =>
        cases args with
        | cons a l => cases hvs
        | nil =>
          cases zs with
          | cons z zs => cases hl
          | nil => exact .nil
      | cons h1 _ ih =>
        cases args with
        | nil => cases hvs
        | cons a l =>
          cases zs with
          | nil => cases hl
          | cons z zs =>
            obtain ⟨rfl, htl⟩ := List.cons.inj hvs
            obtain ⟨h2, h3⟩ := List.cons.inj hl
            refine .cons (h1.2 ht z (by rw [eval_slot]; exact h2)) (ih zs h3 htl)
    · cases he
  · -- conditional
    rename_i c a b
    obtain ⟨e, he, rfl⟩ := exprRes_ok hr
    obtain ⟨x, hx, he⟩ := andThen_ok he
    obtain ⟨y, hy, he⟩ := andThen_ok he
    obtain ⟨z, hz, he⟩ := andThen_ok he
    refine node_stands (m := 0) (h := .cond) (vs := [c, a, b]) hK rfl (.cons (h.boolean hx) (two hy hz)) he fun w hw => ?_
    rw [eval, evals_eq, evals_slots, ← hw]
    rfl
  · -- copy
    obtain ⟨e, he, rfl⟩ := exprRes_ok hr
    exact one he
  · -- quotient
    rename_i a b
    obtain ⟨e, he, rfl⟩ := exprRes_ok hr
    obtain ⟨x, hx, he⟩ := andThen_ok he
    obtain ⟨y, hy, he⟩ := andThen_ok he
    have hx := one hx
    have hy := one hy
    change FnOk lic ρ e (divVal (R a) (R b))
    refine ⟨good_divE hK hx.1 hy.1 he, fun ht z hz => ?_⟩
    obtain ⟨u, hu, hz⟩ := Option.bind_eq_some_iff.1 hz
    obtain ⟨v, hv, hz⟩ := Option.bind_eq_some_iff.1 hz
    by_cases h0 : v = 0
    · rw [if_pos h0] at hz; cases hz
    · rw [if_neg h0] at hz
      cases hz
      refine (divE_ok hK h0 hx (hv ▸ hy) he).2 ht _ ?_
      rw [hu, Option.map_some, div_eq_mul_inv]
  · -- negation
    rename_i v
    obtain ⟨e, he, rfl⟩ := exprRes_ok hr
    obtain ⟨x, hx, he⟩ := andThen_ok he
    exact negE_ok hK (one hx) he
  · -- integers
    rename_i n
    split at hr
    · rename_i hn
      cases hr
      refine ⟨good_node.2 ⟨hn, by simp⟩, fun _ z hz => ?_⟩
      rw [eval_int]
      exact hz
    · cases hr
  · -- leaves
    rename_i k
    cases hk : leaves[k]? with
    | none => simp [hk] at hr
    | some e =>
      simp only [hk, Except.ok.injEq] at hr
      subst hr
      have := hl e (List.mem_of_getElem? hk)
      refine ⟨this.1, fun ht z hz => this.2 ht z ?_⟩
      change (leaves[k]?).bind (eval ρ') = some z at hz
      rw [hk] at hz
      exact hz
  · cases hr

end

/-! ## The loop -/

theorem entry_append {α : Type} {k : Nat} {l m : List (Nat × α)} {x : α} (h : entry k l = some x) : entry k (l ++ m) = some x := by
  unfold entry at h ⊢
  rw [List.find?_append]
  cases hf : l.find? fun p => p.1 == k with
  | none => rw [hf] at h; cases h
  | some p => rw [hf] at h; exact h

theorem entry_none {α : Type} {k : Nat} {l : List (Nat × α)} : entry k l = none ↔ ∀ p ∈ l, p.1 ≠ k := by
  unfold entry
  rw [Option.map_eq_none_iff, List.find?_eq_none]
  simp

theorem entry_mem {α : Type} {k : Nat} {l : List (Nat × α)} {x : α} (h : entry k l = some x) : (k, x) ∈ l := by
  unfold entry at h
  obtain ⟨p, hp, rfl⟩ := Option.map_eq_some_iff.1 h
  have := List.find?_some hp
  have hk : p.1 = k := by simpa using this
  rw [← hk]
  exact List.mem_of_find?_eq_some hp

theorem entry_new {α : Type} {k : Nat} {l : List (Nat × α)} {x : α} (h : entry k l = none) : entry k (l ++ [(k, x)]) = some x := by
  unfold entry at h ⊢
  rw [Option.map_eq_none_iff] at h
  rw [List.find?_append, h]
  simp

theorem entry_other {α : Type} {j k : Nat} {l : List (Nat × α)} {x : α} (h : j ≠ k) : entry j (l ++ [(k, x)]) = entry j l := by
  unfold entry
  rw [List.find?_append]
  cases l.find? fun p => p.1 == j with
  | some p => rfl
  | none => simp [beq_eq_false_iff_ne.2 h.symm]

/-- The state only grows. -/
structure Grows (s s' : FromIr F) : Prop where
  values : ∃ l, s'.values = s.values ++ l
  vars : ∃ l, s'.vars = s.vars ++ l
  outputs : ∃ l, s'.outputs = s.outputs ++ l

omit [DecidableEq F] [FnSem F] in
theorem Grows.refl (s : FromIr F) : Grows s s := ⟨⟨[], by simp⟩, ⟨[], by simp⟩, ⟨[], by simp⟩⟩

omit [DecidableEq F] [FnSem F] in
theorem Grows.trans {s s' s'' : FromIr F} (h : Grows s s') (h' : Grows s' s'') : Grows s s'' := by
  obtain ⟨⟨a, ha⟩, ⟨b, hb⟩, ⟨c, hc⟩⟩ := h
  obtain ⟨⟨a', ha'⟩, ⟨b', hb'⟩, ⟨c', hc'⟩⟩ := h'
  exact ⟨⟨a ++ a', by rw [ha', ha, List.append_assoc]⟩, ⟨b ++ b', by rw [hb', hb, List.append_assoc]⟩, ⟨c ++ c', by rw [hc', hc, List.append_assoc]⟩⟩

omit [DecidableEq F] [FnSem F] in
theorem Grows.entry {s s' : FromIr F} (h : Grows s s') {v : Nat} {r : Rebuilt F} (hr : entry v s.values = some r) : entry v s'.values = some r := by
  obtain ⟨l, hl⟩ := h.values
  rw [hl]; exact entry_append hr

/-- The two kinds of steps. -/
theorem step_cases {K : Ctors F} {m : Nat} {ty : Nat → Prim} {leaves : List (Expr F)} {inter : Bool} {g : Graph} {s s' : FromIr F} {v : Nat}
    (h : fromIrStep K m ty leaves inter g s v = .ok s') :
    (∃ key a r, g.node v = ⟨.save key, [a]⟩ ∧ s.variant a = .ok r ∧ s' = { s with outputs := s.outputs ++ [(key, r)] }) ∨ ((g.node v).op = .jump ∧ s' = s) ∨
      (∃ r, (∀ key, (g.node v).op ≠ .save key) ∧ convertOp K m ty leaves s (g.node v).op (g.node v).args = .ok r ∧ s' = s.insert inter v r) := by
  unfold fromIrStep at h
  split at h
  · rename_i hop
    cases h
    exact .inr (.inl ⟨hop, rfl⟩)
  · rename_i key a hop hargs
    obtain ⟨r, hr, h⟩ := andThen_ok h
    cases h
    exact .inl ⟨key, a, r, by rw [← hop, ← hargs], hr, rfl⟩
  · cases h
  · rename_i h1 h2 h3
    obtain ⟨r, hr, h⟩ := andThen_ok h
    cases h
    exact .inr (.inr ⟨r, fun key hk => h2 key hk, hr, rfl⟩)

theorem insert_grows (inter : Bool) (s : FromIr F) (v : Nat) (r : Rebuilt F) : Grows s (s.insert inter v r) := by
  unfold FromIr.insert
  split
  · exact Grows.refl s
  · refine ⟨⟨_, rfl⟩, ?_, ⟨[], by simp⟩⟩
    by_cases hb : (inter && r.isScalar) = true
    · exact ⟨[v], by simp only [hb, if_true]⟩
    · exact ⟨[], by simp only [hb, Bool.false_eq_true, if_false, List.append_nil]⟩

theorem step_grows {K : Ctors F} {m : Nat} {ty : Nat → Prim} {leaves : List (Expr F)} {inter : Bool} {g : Graph} {s s' : FromIr F} {v : Nat}
    (h : fromIrStep K m ty leaves inter g s v = .ok s') : Grows s s' := by
  rcases step_cases h with ⟨key, a, r, _, _, rfl⟩ | ⟨_, rfl⟩ | ⟨r, _, _, rfl⟩
  · exact ⟨⟨[], by simp⟩, ⟨[], by simp⟩, ⟨_, rfl⟩⟩
  · exact Grows.refl _
  · exact insert_grows inter s v r

theorem loop_grows {K : Ctors F} {m : Nat} {ty : Nat → Prim} {leaves : List (Expr F)} {inter : Bool} {g : Graph} : ∀ {vs : List Nat} {s s' : FromIr F},
    fromIrLoop K m ty leaves inter g s vs = .ok s' → Grows s s'
  | [], s, s', h => by cases h; exact Grows.refl s
  | v :: vs, s, s', h => by
    unfold fromIrLoop at h
    obtain ⟨s1, h1, h⟩ := andThen_ok h
    exact (step_grows h1).trans (loop_grows h)

section
variable {lic : Lic F} {ρ ρ' : Env F} {K : Ctors F} {R : Nat → Option ℂ} {num : Nat → List ℂ → ℂ} {s : FromIr F}

theorem good_irVar (v : Nat) : Good (irVar v : Expr F) := good_node.2 ⟨trivial, by simp⟩

/-- The variables have the values of their definitions in the assignment. -/
def Defined (ρ : Env F) (s : FromIr F) : Prop := ∀ v e, v ∈ s.vars → entry v s.values = some (.expr e) → eval ρ (irVar v) = eval ρ e

theorem insert_known {inter : Bool} (h : Known lic ρ num R s) {v : Nat} {r : Rebuilt F} (hr : Stands lic ρ num (R v) r) (hd : Defined ρ (s.insert inter v r)) :
    Known lic ρ num R (s.insert inter v r) := by
  unfold FromIr.insert at hd ⊢
  cases he : entry v s.values with
  | some _ => exact h
  | none =>
    simp only [he] at hd ⊢
    refine ⟨fun w r' hw => ?_, fun w hw => ?_⟩
    · by_cases hwv : w = v
      · subst hwv
        simp only [entry_new he, Option.some.injEq] at hw
        subst hw; exact hr
      · simp only [entry_other hwv] at hw
        exact h.value w r' hw
    · by_cases hb : (inter && r.isScalar) = true
      · simp only [hb, if_true] at hw hd
        rcases List.mem_append.1 hw with hw | hw
        · exact h.var w hw
        · rw [List.mem_singleton] at hw
          subst hw
          cases r with
          | matrix a b es => simp [Rebuilt.isScalar] at hb
          | expr e =>
            refine ⟨good_irVar w, fun ht z hz => ?_⟩
            rw [hd w e (by simp) (entry_new he)]
            exact hr.2 ht z hz
      · simp only [hb, Bool.false_eq_true, if_false] at hw
        exact h.var w hw

/-- What the loop establishes: the outputs stand for what the program writes. -/
theorem loop_known (hK : Sound lic ρ K) {m : Nat} {ty : Nat → Prim} {leaves : List (Expr F)} (hl : ∀ e ∈ leaves, FnOk lic ρ e (eval ρ' e)) {inter : Bool} {g : Graph}
    (hR : ∀ v ∈ g.ops, R v = strictVal num ρ' leaves (g.node v).op ((g.node v).args.map R)) : ∀ {vs : List Nat} {s fin : FromIr F}, (∀ v ∈ vs, v ∈ g.ops) →
    fromIrLoop K m ty leaves inter g s vs = .ok fin → Defined ρ fin → Known lic ρ num R s →
      Known lic ρ num R fin ∧
      (∀ p ∈ fin.outputs, p ∈ s.outputs ∨ ∃ v ∈ vs, ∃ a, g.node v = ⟨.save p.1, [a]⟩ ∧ Stands lic ρ num (R a) p.2) ∧
      ∀ v ∈ vs, ∀ key, (g.node v).op = .save key → ∃ r, (key, r) ∈ fin.outputs
  | [], s, fin, _, h, _, hk => by
    cases h
    exact ⟨hk, fun p hp => .inl hp, fun v hv => by cases hv⟩
  | v :: vs, s, fin, hin, h, hd, hk => by
    unfold fromIrLoop at h
    obtain ⟨s1, h1, hrun⟩ := andThen_ok h
    have hg := loop_grows hrun
    have hd1 : Defined ρ s1 := fun w e hw he => hd w e (by obtain ⟨l, hl⟩ := hg.vars; rw [hl]; exact List.mem_append_left _ hw) (hg.entry he)
    have hrest : ∀ w ∈ vs, w ∈ g.ops := fun w hw => hin w (List.mem_cons_of_mem _ hw)
    rcases step_cases h1 with ⟨key, a, r, hn, hr, rfl⟩ | ⟨hn, hs1⟩ | ⟨r, hn, hr, rfl⟩
    · obtain ⟨i1, i2, i3⟩ := loop_known hK hl hR hrest hrun hd ⟨hk.value, hk.var⟩
      refine ⟨i1, fun p hp => ?_, fun w hw k hop => ?_⟩
      · rcases i2 p hp with hp | ⟨w, hw, b, hb⟩
        · rcases List.mem_append.1 hp with hp | hp
          · exact .inl hp
          · rw [List.mem_singleton] at hp
            subst hp
            exact .inr ⟨v, List.mem_cons_self, a, hn, hk.variant hr⟩
        · exact .inr ⟨w, List.mem_cons_of_mem _ hw, b, hb⟩
      · rcases List.mem_cons.1 hw with rfl | hw
        · rw [hn] at hop
          cases hop
          obtain ⟨l, hl⟩ := hg.outputs
          exact ⟨r, by rw [hl]; simp⟩
        · exact i3 w hw k hop
    · subst hs1
      obtain ⟨i1, i2, i3⟩ := loop_known hK hl hR hrest hrun hd hk
      refine ⟨i1, fun p hp => ?_, fun w hw k hop => ?_⟩
      · rcases i2 p hp with hp | ⟨w, hw, b, hb⟩
        · exact .inl hp
        · exact .inr ⟨w, List.mem_cons_of_mem _ hw, b, hb⟩
      · rcases List.mem_cons.1 hw with rfl | hw
        · rw [hn] at hop; cases hop
        · exact i3 w hw k hop
    · have hst := convertOp_ok hK hk hl hr
      rw [← hR v (hin v List.mem_cons_self)] at hst
      obtain ⟨i1, i2, i3⟩ := loop_known hK hl hR hrest hrun hd (insert_known hk hst hd1)
      have ho : (s.insert inter v r).outputs = s.outputs := by unfold FromIr.insert; split <;> rfl
      refine ⟨i1, fun p hp => ?_, fun w hw k hop => ?_⟩
      · rcases i2 p hp with hp | ⟨w, hw, b, hb⟩
        · exact .inl (ho ▸ hp)
        · exact .inr ⟨w, List.mem_cons_of_mem _ hw, b, hb⟩
      · rcases List.mem_cons.1 hw with rfl | hw
        · exact absurd hop (hn k)
        · exact i3 w hw k hop

theorem intermediate_mem {s : FromIr F} {l : List (Expr F × Expr F)} {vs : List Nat} (h : s.intermediate vs = .ok l) {v : Nat} {e : Expr F} (hv : v ∈ vs)
    (he : entry v s.values = some (.expr e)) : (irVar v, e) ∈ l := by
  have hf := mapRes_forall (P := fun v p => ∀ e, entry v s.values = some (.expr e) → p = (irVar v, e)) h (fun w _ p hp e he => by
    simp only [he] at hp
    split at hp
    · cases hp
    · exact (Except.ok.inj hp).symm)
  clear h
  induction hf with
  | nil => cases hv
  | cons h1 _ ih =>
    rcases List.mem_cons.1 hv with rfl | hv
    · rw [h1 e he]; exact List.mem_cons_self
    · exact List.mem_cons_of_mem _ (ih hv)

theorem known_nil : Known lic ρ num R (⟨[], [], []⟩ : FromIr F) := by
  constructor
  · intro v r h; cases h
  · intro v h; cases h

/-- The outputs of `rebuild_expression_tree` stand for what the program writes, in an assignment that gives the intermediate variables the values of their
definitions. -/
theorem rebuildTree_ok (hK : Sound lic ρ K) {m : Nat} {ty : Nat → Prim} {leaves : List (Expr F)} (hl : ∀ e ∈ leaves, FnOk lic ρ e (eval ρ' e)) {inter : Bool} {g : Graph}
    (hw : Gen.WF g) (ho : Gen.InOrder g) {res : RebuiltOutputs F} (h : rebuildTree K m ty leaves inter g = .ok res)
    (hd : ∀ p ∈ res.intermediate, eval ρ p.1 = eval ρ p.2) (num : Nat → List ℂ → ℂ) (key : Nat) {x : Partial ℂ}
    (hx : Gen.Writes (strictInterp num ρ' leaves) g key x) (hu : ∀ y, Gen.Writes (strictInterp num ρ' leaves) g key y → y = x) :
    ∃ r, entry key res.outputs = some r ∧ Stands lic ρ num x r := by
  obtain ⟨fin, hf, h⟩ := andThen_ok h
  obtain ⟨l, hi, h⟩ := andThen_ok h
  cases h
  have hsat := Gen.run_sat (strictInterp num ρ' leaves) hw.nodup ho
  obtain ⟨_, h2, h3⟩ := loop_known (num := num) (R := Gen.run (V := Partial ℂ) (strictInterp num ρ' leaves) g) hK hl hsat (fun v hv => hv) hf
    (fun v e hv he => hd (irVar v, e) (intermediate_mem hi hv he)) known_nil
  obtain ⟨v, hv, hop, _⟩ := hx
  obtain ⟨r, hr⟩ := h3 v hv key hop
  cases he : entry key fin.outputs with
  | none => exact absurd rfl (entry_none.1 he _ hr)
  | some r' =>
    refine ⟨r', rfl, ?_⟩
    rcases h2 _ (entry_mem he) with hm | ⟨w, hw, a, hn, hs⟩
    · cases hm
    · have := hu (Gen.run (strictInterp num ρ' leaves) g a) ⟨w, hw, by rw [hn], by rw [hn]; rfl⟩
      rw [← this]
      exact hs
end

end Wf.Sym
