import Verif.Sym.SingleProduct
import Verif.Sym.ValueProps

/-! # Property C53: replacing an expression by one of the same value -/

namespace Wf.Sym
open Complex

variable {F : Type} [DecidableEq F] [FnSem F]

/-! ## Floats in the target -/

theorem addCoeff_exact {a b c : Coeff F} (ha : a.isFlt = false) (hb : b.isFlt = false) (h : addCoeff a b = .ok c) : c.isFlt = false := by
  have hi : ∀ {r : Res Int}, (intCoeff r : Res (Coeff F)) = .ok c → c.isFlt = false := by
    intro r h
    cases r with
    | error e => cases h
    | ok v => cases h; rfl
  have hr : ∀ {r : Res RatC}, (ratCoeff r : Res (Coeff F)) = .ok c → c.isFlt = false := by
    intro r h
    cases r with
    | error e => cases h
    | ok v => cases h; rfl
  cases a <;> cases b <;> dsimp only [Coeff.isFlt] at ha hb <;> simp only [addCoeff] at h <;>
    first | exact hi h | exact hr h | exact absurd ha (by decide) | exact absurd hb (by decide) | (cases h; rfl)

theorem addPartsOf_exact {K : Ctors F} {ts : List (Expr F)} {p : AddParts F} (hf : ∀ f, Expr.flt f ∉ flatAdds ts) (h : addPartsOf K ts = .ok p) :
    p.coeff.isFlt = false := by
  unfold addPartsOf at h
  split at h
  · cases h
  · rename_i q hq
    cases h
    show q.coeff.isFlt = false
    refine overT_fold (f := addTerm K) (Q := fun p : AddParts F => p.coeff.isFlt = false) (R := fun t => ∀ f, t ≠ Expr.flt f)
      (fun s a s1 hs ha h => ?_) rfl (fun t ht f he => hf f (he ▸ ht)) hq
    unfold addTerm at h
    split at h
    · rename_i c hc
      split at h
      · cases h
      · rename_i c' hc'
        cases h
        refine addCoeff_exact hs ?_ hc'
        rcases ofExpr_cases hc with ⟨k, rfl, rfl⟩ | ⟨k, rfl, rfl⟩ | ⟨f, rfl, rfl⟩ | ⟨rfl, rfl⟩ | ⟨rfl, rfl⟩
        · rfl
        · rfl
        · exact absurd rfl (ha f)
        · rfl
        · rfl
    · split at h
      · cases h; exact hs
      · split at h
        · cases h
        · cases h; exact hs

/-- The product has no float factor: neither a factor nor what a power of a factor simplifies to is a float. -/
def NoFloatFactor (nK m : Nat) (ts : List (Expr F)) : Prop :=
  ∀ lic tp, mulPartsOf (ctors lic nK) lic m ts = .ok tp → tp.coeff.isFlt = false

/-- It is enough that no factor is a float and that no factor is, or is a power of, a power or a product. -/
theorem noFloatFactor_of {nK m : Nat} {ts : List (Expr F)}
    (h : ∀ t ∈ ts, (∀ f, t ≠ .flt f) ∧ (isMulOrPow t = true → ∃ b e, t = .pow b e ∧ isMulOrPow b = false)) : NoFloatFactor nK m ts := by
  intro lic tp htp
  unfold mulPartsOf at htp
  split at htp
  · cases htp
  · rename_i q hq
    cases htp
    show q.coeff.isFlt = false
    have fac : ∀ {K : Ctors F} {positive : Bool} {p q : MulParts F} {n : Int}, p.coeff.isFlt = false → insertFactors K positive p n = .ok q → q.coeff.isFlt = false :=
      fun hp h => by rw [insertFactors_coeff h]; exact hp
    have ins : ∀ {K : Ctors F} {p q : MulParts F} {b e : Expr F}, isMulOrPow b = false → p.coeff.isFlt = false → insertPower K lic p b e = .ok q → q.coeff.isFlt = false := by
      intro K p q b e hb hp h
      unfold insertPower at h
      split at h
      · cases h; exact hp
      · split at h
        · cases h
        · unfold mergePower at h
          rw [if_neg (by simp [hb])] at h
          cases h; exact hp
    have mulx : ∀ {a b c : Coeff F}, a.isFlt = false → b.isFlt = false → mulCoeff a b = .ok c → c.isFlt = false := by
      intro a b c ha hb h
      have hi : ∀ {r : Res Int}, (intCoeff r : Res (Coeff F)) = .ok c → c.isFlt = false := by
        intro r h
        cases r with
        | error e => cases h
        | ok v => cases h; rfl
      have hr : ∀ {r : Res RatC}, (ratCoeff r : Res (Coeff F)) = .ok c → c.isFlt = false := by
        intro r h
        cases r with
        | error e => cases h
        | ok v => cases h; rfl
      cases a <;> cases b <;> dsimp only [Coeff.isFlt] at ha hb <;> simp only [mulCoeff] at h <;>
        first | exact hi h | exact hr h | exact absurd ha (by decide) | exact absurd hb (by decide) | (cases h; rfl) | (cases h; split <;> rfl)
    refine overT_fold (f := visitF (ctors lic nK) lic m) (Q := fun p : MulParts F => p.coeff.isFlt = false)
      (R := fun t => (∀ f, t ≠ Expr.flt f) ∧ (isMulOrPow t = true → ∃ b e, t = .pow b e ∧ isMulOrPow b = false))
      (fun s a s1 hs ha h => ?_) rfl h hq
    cases m with
    | zero => cases h
    | succ m =>
      change foldRes (mulTermF ((ctors lic nK).factored lic m) lic) s (flatMul a) = .ok s1 at h
      have hflat : flatMul a = [a] := by
        obtain ⟨hd, as⟩ := a
        rw [flatMul.eq_def]
        cases hd
        case mul => obtain ⟨b, e, h, _⟩ := ha.2 rfl; cases h
        all_goals rfl
      rw [hflat, foldRes] at h
      cases h1 : mulTermF ((ctors lic nK).factored lic m) lic s a with
      | error e => simp [h1] at h
      | ok s2 =>
        simp only [h1, foldRes, Except.ok.injEq] at h
        subst h
        unfold mulTermF at h1
        split at h1
        · exact fac hs h1
        · split at h1
          · cases h1
          · rename_i hq
            exact fac (fac hs hq) h1
        · unfold mulTerm at h1
          split at h1
          · rename_i c hc
            split at h1
            · cases h1
            · rename_i c' hc'
              cases h1
              refine mulx hs ?_ hc'
              rcases ofExpr_cases hc with ⟨k, rfl, rfl⟩ | ⟨k, rfl, rfl⟩ | ⟨f, rfl, rfl⟩ | ⟨rfl, rfl⟩ | ⟨rfl, rfl⟩
              · rfl
              · rfl
              · exact absurd rfl (ha.1 f)
              · rfl
              · rfl
          · split at h1
            · rename_i b e _
              obtain ⟨b', e', he, hb⟩ := ha.2 rfl
              cases he
              exact ins hb hs h1
            · exact ins rfl hs h1
            · rename_i hnp _
              refine ins ?_ hs h1
              cases hb : isMulOrPow a with
              | false => rfl
              | true =>
                obtain ⟨b', e', he, _⟩ := ha.2 hb
                exact absurd he (hnp b' e')

/-! ## The theorems -/

theorem attemptPartial_other {K : Ctors F} {lic : Lic F} {m : Nat} {t s e : Expr F} (h : t.head ≠ .add ∧ t.head ≠ .mul ∧ t.head ≠ .pow) :
    attemptPartial K lic m t s e = .ok e := by
  unfold attemptPartial
  split
  · exact absurd rfl h.1
  · exact absurd rfl h.2.1
  · exact absurd rfl h.2.2
  · rfl

theorem single_run {S : Env F → Prop} {nK m n : Nat} {e t s r : Expr F} (h : LawfulRunOn S nK (fun lic K => substSingle K lic m n e (t, s)) r) :
    ∃ lic : Lic F, (∀ ρ, S ρ → lic.TrueAt ρ) ∧ visitor (substBody (ctors lic nK) lic m t s) n e = .ok r := by
  obtain ⟨lic, hl, hr⟩ := h.lawful
  unfold substSingle at hr
  split at hr
  · cases hr
  · exact ⟨lic, hl, hr⟩

/-- **C53** (variables, functions, conditionals, relations: any target that is not a sum, a product or a power). If the target and the replacement have
the same value, then `e.subs(target, replacement)` has the value of `e`, wherever `e` has one. -/
theorem C53_other_targets (ρ : Env F) (nK m n : Nat) (e t s r : Expr F) (ht : t.head ≠ .add ∧ t.head ≠ .mul ∧ t.head ≠ .pow) (hp : Plain e) (hg : Good e)
    (hs : Good s) (hv : ∀ z, eval ρ t = some z → eval ρ s = some z)
    (h : LawfulRunOn (· = ρ) nK (fun lic K => substSingle K lic m n e (t, s)) r) : Good r ∧ ∀ z, eval ρ e = some z → eval ρ r = some z := by
  obtain ⟨lic, hl, hr⟩ := single_run h
  obtain ⟨h1, h2⟩ := single_ok (P := fun h _ => h.plain = true) (ctors_sound lic ρ nK) (fun _ _ h => h) hs (fun _ => hv)
    (fun e r hp hg ha => by rw [attemptPartial_other ht] at ha; cases ha; exact ⟨hp, self_ok _ hg⟩) n e r hp hg hr
  exact ⟨h1, fun z hz => h2 (hl ρ rfl) z hz⟩

/-- **C53** (sums, partial). If a sum and its replacement have the same value, then replacing the sum, also inside larger sums, keeps the value.

Missing: targets with a float term, where the claim fails, see below. -/
theorem C53_sum_partial (ρ : Env F) (nK m n : Nat) (e s r : Expr F) (ts : List (Expr F)) (v : ℂ) (hp : Plain e ∧ Plain s) (hg : Good e ∧ Good s)
    (ht : Good (.add ts)) (hf : ∀ f, Expr.flt f ∉ flatAdds ts) (hv : eval ρ (.add ts) = some v) (hsv : eval ρ s = some v)
    (h : LawfulRunOn (· = ρ) nK (fun lic K => substSingle K lic m n e (.add ts, s)) r) : Good r ∧ ∀ z, eval ρ e = some z → eval ρ r = some z := by
  obtain ⟨lic, hl, hr⟩ := single_run h
  have hC := ctors_closed (F := F) plain_basic lic nK
  obtain ⟨h1, h2⟩ := single_ok (P := fun h _ => h.plain = true) (ctors_sound lic ρ nK) (fun _ _ h => h) hg.2 (fun _ z hz => by rw [hsv, ← hv, hz])
    (fun e r hpe hge ha => by
      unfold attemptPartial at ha
      split at ha
      · rename_i ts' cs heq
        cases heq
        exact ⟨plain_addPartial hC (plain_node.1 hpe).2 hp.2 ha,
          addPartial_ok (ctors_sound lic ρ nK) (good_add.1 ht) (good_add.1 hge) hg.2 (fun tp htp => addPartsOf_exact hf htp) hv hsv ha⟩
      · rename_i heq; cases heq
      · rename_i heq; cases heq
      · cases ha; exact ⟨hpe, self_ok _ hge⟩) n e r hp.1 hg.1 hr
  exact ⟨h1, fun z hz => h2 (hl ρ rfl) z hz⟩

/-- **C53** (powers, partial). If a power and its replacement have the same value, then replacing the power, also inside other powers of the same base,
keeps the value.

Missing: targets with the value zero or an exponent of the value zero; where the target is zero the claim fails, see below. -/
theorem C53_power_partial (ρ : Env F) (nK m n : Nat) (e s r tb te : Expr F) (v y : ℂ) (hp : Plain e ∧ Plain s ∧ Plain te) (hg : Good e ∧ Good s)
    (ht : Good (.pow tb te)) (hv : eval ρ (.pow tb te) = some v) (hv0 : v ≠ 0) (hy : eval ρ te = some y) (hy0 : y ≠ 0) (hsv : eval ρ s = some v)
    (h : LawfulRunOn (· = ρ) nK (fun lic K => substSingle K lic m n e (.pow tb te, s)) r) : Good r ∧ ∀ z, eval ρ e = some z → eval ρ r = some z := by
  obtain ⟨lic, hl, hr⟩ := single_run h
  have hC := ctors_closed (F := F) plain_basic lic nK
  obtain ⟨h1, h2⟩ := single_ok (P := fun h _ => h.plain = true) (ctors_sound lic ρ nK) (fun _ _ h => h) hg.2 (fun _ z hz => by rw [hsv, ← hv, hz])
    (fun e r hpe hge ha => by
      unfold attemptPartial at ha
      split at ha
      · rename_i heq; cases heq
      · rename_i heq; cases heq
      · rename_i tb' te' cb ce heq
        cases heq
        obtain ⟨g1, g2⟩ := good_pow.1 ht
        obtain ⟨g3, g4⟩ := good_pow.1 hge
        obtain ⟨p1, p2⟩ := (plain_basic (F := F)).opow.1 hpe
        exact ⟨plain_powPartial hC hp.2.2 p1 p2 hp.2.1 ha, powPartial_ok (ctors_sound lic ρ nK) g1 g2 g3 g4 hg.2 hv hv0 hy hy0 hsv ha⟩
      · cases ha; exact ⟨hpe, self_ok _ hge⟩) n e r hp.1 hg.1 hr
  exact ⟨h1, fun z hz => h2 (hl ρ rfl) z hz⟩

/-- **C53** (products, partial). If a product and its replacement have the same value, then replacing the product, also inside larger products and products
of its powers, keeps the value. (The constructors make no product with a factor zero, see C13.)

Missing: targets with the value zero and targets with a float factor; in both cases the claim fails, see below. -/
theorem C53_product_partial (ρ : Env F) (nK m n : Nat) (e s r : Expr F) (ts : List (Expr F)) (v : ℂ) (hp : PlainNZ e ∧ PlainNZ s ∧ PlainNZ (.mul ts))
    (hg : Good e ∧ Good s) (ht : Good (.mul ts)) (hf : NoFloatFactor nK m ts) (hv : eval ρ (.mul ts) = some v) (hv0 : v ≠ 0) (hsv : eval ρ s = some v)
    (h : LawfulRunOn (· = ρ) nK (fun lic K => substSingle K lic m n e (.mul ts, s)) r) : Good r ∧ ∀ z, eval ρ e = some z → eval ρ r = some z := by
  obtain ⟨lic, hl, hr⟩ := single_run h
  have hC := ctors_closed (F := F) noZero_basic lic nK
  obtain ⟨h1, h2⟩ := single_ok (P := Head.noZero) (ctors_sound lic ρ nK) (fun _ _ h => h.1) hg.2 (fun _ z hz => by rw [hsv, ← hv, hz])
    (fun e r hpe hge ha => by
      unfold attemptPartial at ha
      split at ha
      · rename_i heq; cases heq
      · rename_i ts' cs heq
        cases heq
        exact ⟨over_mulPartial hC hp.2.2 hpe hp.2.1 ha,
          mulPartial_ok (ctors_sound lic ρ nK) hC ⟨ht, hp.2.2⟩ ⟨hge, hpe⟩ hg.2 (hf lic) hv hv0 hsv ha⟩
      · rename_i heq; cases heq
      · cases ha; exact ⟨hpe, self_ok _ hge⟩) n e r hp.1 hg.1 hr
  exact ⟨h1, fun z hz => h2 (hl ρ rfl) z hz⟩

/-! ## Where the claim fails -/

/-- A real variable. -/
abbrev vw : Expr ℝ := .var "w" .real

/-- **C53**, refuted for a sum with a float: `(y + z).subs(y + 1.0, w)` is `w + z`. With `y = 1`, `z = 1` and `w = y + 1.0` the expression is 2 and the result
is 3. -/
theorem C53_float_sum :
    let ρ := valuesOf fun n => if n = "w" then 2 else 1
    substSingle (ctors codeLic 8) codeLic 4 3 (.add [vy, vz]) (.add [.flt 1, vy], vw) = .ok (.add [vw, vz]) ∧
    eval ρ (.add [.flt 1, vy]) = eval ρ vw ∧ eval ρ (.add [vy, vz]) = some 2 ∧ eval ρ (.add [vw, vz]) = some 3 := by
  have z : ∀ a : ℝ, fltIsZero a = decide (a = 0) := fun a => by
    show decide (a = ((0 : ℤ) : ℝ)) = _
    simp
  have e1 : addCoeff (.int 0) (.flt (1 : ℝ)) = .ok (.flt 1) := by
    show Except.ok (fltCoeff ((1 : ℝ) + ((0 : ℤ) : ℝ))) = _
    simp [fltCoeff, z]
  have parts : addPartsOf (ctors codeLic 8) [.flt (1 : ℝ), vy] = .ok ⟨.flt 1, [(vy, .int 1)]⟩ := by
    unfold addPartsOf
    simp only [flatAdds, flatAdd, List.append_nil, List.cons_append, List.nil_append, foldRes, addTerm, Coeff.ofExpr, e1]
    rfl
  have hp : addPartial (ctors codeLic 8) [.flt (1 : ℝ), vy] vw [vy, vz] = .ok (.add [vw, vz]) := by
    unfold addPartial
    rw [parts]
    decide +kernel
  intro ρ
  refine ⟨?_, ?_, ?_, ?_⟩
  · unfold substSingle
    rw [if_neg (by decide)]
    show substBody (ctors codeLic 8) codeLic 4 (.add [.flt 1, vy]) vw (visitor (substBody (ctors codeLic 8) codeLic 4 (.add [.flt 1, vy]) vw) 2)
      (.add [vy, vz]) = _
    rw [substBody, if_neg (by simp [identical_iff]), show attemptPartial (ctors codeLic 8) codeLic 4 (.add [.flt (1 : ℝ), vy]) vw (.add [vy, vz]) = _ from hp]
    decide +kernel
  · have h1 : eval ρ (.flt (1 : ℝ)) = some 1 := by rw [eval_flt]; show some (((1 : ℝ) : ℂ)) = _; simp
    simp [eval_add, sumO, addO, eval_var, h1, ρ]; norm_num
  · simp [eval_add, sumO, addO, eval_var, ρ]; norm_num
  · simp [eval_add, sumO, addO, eval_var, ρ]; norm_num

/-- **C53**, refuted for a product with a float: `(y * z).subs(2.0 * y, w)` is `w * z`. With `y = 1`, `z = 1` and `w = 2.0 * y` the expression is 1 and the
result is 2. -/
theorem C53_float_product :
    let ρ := valuesOf fun n => if n = "w" then 2 else 1
    substSingle (ctors codeLic 8) codeLic 4 3 (.mul [vy, vz]) (.mul [.flt 2, vy], vw) = .ok (.mul [vw, vz]) ∧
    eval ρ (.mul [.flt 2, vy]) = eval ρ vw ∧ eval ρ (.mul [vy, vz]) = some 1 ∧ eval ρ (.mul [vw, vz]) = some 2 := by
  have z : ∀ a : ℝ, fltIsZero a = decide (a = 0) := fun a => by
    show decide (a = ((0 : ℤ) : ℝ)) = _
    simp
  have e1 : mulCoeff (.int 1) (.flt (2 : ℝ)) = .ok (.flt 2) := by
    show Except.ok (fltCoeff ((2 : ℝ) * ((1 : ℤ) : ℝ))) = _
    simp [fltCoeff, z]
  have parts : mulPartsOf (ctors codeLic 8) codeLic 4 [.flt (2 : ℝ), vy] = .ok ⟨.flt 2, [(vy, .int 1)]⟩ := by
    unfold mulPartsOf
    simp only [foldRes, visitF, flatMul, mulTermF, mulTerm, Coeff.ofExpr, e1]
    rfl
  have hp : mulPartial (ctors codeLic 8) codeLic 4 [.flt (2 : ℝ), vy] vw [vy, vz] = .ok (.mul [vw, vz]) := by
    unfold mulPartial
    rw [parts]
    decide +kernel
  intro ρ
  refine ⟨?_, ?_, ?_, ?_⟩
  · unfold substSingle
    rw [if_neg (by decide)]
    show substBody (ctors codeLic 8) codeLic 4 (.mul [.flt 2, vy]) vw (visitor (substBody (ctors codeLic 8) codeLic 4 (.mul [.flt 2, vy]) vw) 2)
      (.mul [vy, vz]) = _
    rw [substBody, if_neg (by simp [identical_iff]), show attemptPartial (ctors codeLic 8) codeLic 4 (.mul [.flt (2 : ℝ), vy]) vw (.mul [vy, vz]) = _ from hp]
    decide +kernel
  · have h1 : eval ρ (.flt (2 : ℝ)) = some 2 := by rw [eval_flt]; show some (((2 : ℝ) : ℂ)) = _; simp
    simp [eval_mul, prodO, mulO, eval_var, h1, ρ]
  · simp [eval_mul, prodO, mulO, eval_var, ρ]
  · simp [eval_mul, prodO, mulO, eval_var, ρ]

/-- **C53**, refuted for a product with the value zero: `(z ** 2 / y).subs(y * z, w)` is `z ** 3 / w`. With `z = 0`, `y = 1` and `w = y * z` the expression
is zero and the result divides by zero. -/
theorem C53_zero_product :
    let ρ := valuesOf fun n => if n = "y" then 1 else 0
    substSingle (ctors codeLic 10) codeLic 6 4 (.mul [.pow vy (.int (-1)), .pow vz (.int 2)]) (.mul [vy, vz], vw) =
      .ok (.mul [.pow vw (.int (-1)), .pow vz (.int 3)]) ∧
    eval ρ (.mul [vy, vz]) = eval ρ vw ∧ eval ρ (.mul [.pow vy (.int (-1)), .pow vz (.int 2)]) = some 0 ∧
    eval ρ (.mul [.pow vw (.int (-1)), .pow vz (.int 3)]) = none := by
  intro ρ
  refine ⟨by decide +kernel, ?_, ?_, ?_⟩
  · simp [eval_mul, prodO, mulO, eval_var, ρ]
  · simp [eval_mul, eval_pow, prodO, mulO, powO, powVal, eval_var, ρ]
  · simp [eval_mul, eval_pow, prodO, mulO, powO, powVal, eval_var, ρ]

/-- **C53**, refuted for a power with the value zero: `(z ** (x - y)).subs(z ** y, w)` is `z ** x / w`. With `z = 0`, `x = 2`, `y = 1` and `w = z ** y` the
expression is zero and the result divides by zero. -/
theorem C53_zero_power :
    let ρ := valuesOf fun n => if n = "x" then 2 else if n = "y" then 1 else 0
    substSingle (ctors codeLic 10) codeLic 6 4 (.pow vz (.add [vx, .mul [.int (-1), vy]])) (.pow vz vy, vw) = .ok (.mul [.pow vz vx, .pow vw (.int (-1))]) ∧
    eval ρ (.pow vz vy) = eval ρ vw ∧ eval ρ (.pow vz (.add [vx, .mul [.int (-1), vy]])) = some 0 ∧
    eval ρ (.mul [.pow vz vx, .pow vw (.int (-1))]) = none := by
  intro ρ
  refine ⟨by decide +kernel, ?_, ?_, ?_⟩
  · simp [eval_pow, powO, powVal, eval_var, ρ]
  · simp [eval_mul, eval_add, eval_pow, sumO, addO, prodO, mulO, powO, powVal, eval_var, ρ]
  · simp [eval_mul, eval_pow, prodO, mulO, powO, powVal, eval_var, ρ]

/-! ## Non-vacuity -/

/-- `(sin(x) * y).subs(sin(x), w)` -/
example : LawfulRunOn (· = valuesOf fun _ => 2) 8 (fun lic K => substSingle K lic 4 4 (.mul [vy, .fn .sin [vx]]) (.fn .sin [vx], vw)) (.mul [vw, vy]) :=
  ⟨by decide +kernel, noLic, fun _ _ => noLic_true _, by decide +kernel⟩

/-- `(x + y + z).subs(y + z, w)`, also inside a function. -/
example : (∀ f, Expr.flt f ∉ flatAdds [vy, vz]) ∧
    LawfulRunOn (· = valuesOf fun _ => 2) 8 (fun lic K => substSingle K lic 4 5 (.fn .sin [.add [vx, vy, vz]]) (.add [vy, vz], vw)) (.fn .sin [.add [vw, vx]]) :=
  ⟨by simp [flatAdds, flatAdd], by decide +kernel, noLic, fun _ _ => noLic_true _, by decide +kernel⟩

/-- `(x ** 5).subs(x ** 2, w)` -/
example : LawfulRunOn (· = valuesOf fun _ => 2) 8 (fun lic K => substSingle K lic 4 5 (.pow vx (.int 5)) (.pow vx (.int 2), vw)) (.mul [.pow vw (.int 2), vx]) :=
  ⟨by decide +kernel, noLic, fun _ _ => noLic_true _, by decide +kernel⟩

/-- `(4 * x ** 2 * y ** 3).subs(2 * x * y, w)` -/
example : NoFloatFactor 8 4 [.int 2, vx, vy] ∧ PlainNZ (.mul [.int 2, vx, vy]) ∧
    LawfulRunOn (· = valuesOf fun _ => 2) 8
      (fun lic K => substSingle K lic 4 5 (.mul [.pow vx (.int 2), .pow vy (.int 3), .int 4]) (.mul [.int 2, vx, vy], vw)) (.mul [.pow vw (.int 2), vy]) := by
  refine ⟨noFloatFactor_of (by simp [isMulOrPow, Expr.head]), over_node.2 ⟨⟨rfl, by simp⟩, ?_⟩, by decide +kernel, noLic, fun _ _ => noLic_true _, by decide +kernel⟩
  simp only [List.mem_cons, List.not_mem_nil, or_false, forall_eq_or_imp, forall_eq]
  exact ⟨noZero_basic.oint 2, over_node.2 ⟨⟨rfl, by simp⟩, by simp⟩, over_node.2 ⟨⟨rfl, by simp⟩, by simp⟩⟩

end Wf.Sym
