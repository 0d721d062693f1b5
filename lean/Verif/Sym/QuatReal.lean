import Verif.Sym.QuatLemmas

/-!
# Values of the functions of real quaternions: norms, angles, rotation vectors, rotation matrices
-/

namespace Wf.Sym

open Geo

variable {F : Type} [DecidableEq F] [FnSem F]

/-- Well formed, and the value is the real number `x` if `P`. -/
def RealIf (P : Prop) (ρ : Env F) (e : Expr F) (x : ℝ) : Prop := ValIf P ρ e (x : ℂ)

theorem RealIf.mono {P P' : Prop} {ρ : Env F} {e : Expr F} {x : ℝ} (h : RealIf P ρ e x) (hp : P' → P) : RealIf P' ρ e x := ValIf.mono h hp
theorem RealIf.cast {P : Prop} {ρ : Env F} {e : Expr F} {x y : ℝ} (h : RealIf P ρ e x) (hw : P → x = y) : RealIf P ρ e y :=
  ValIf.cast h fun p => by rw [hw p]
theorem RealIf.int {P : Prop} {ρ : Env F} {n : Int} (h : InI64 n) : RealIf P ρ (.int n) (n : ℝ) := by
  have := ValIf.int (P := P) (ρ := ρ) h
  unfold RealIf
  push_cast
  exact this
theorem real_zero {P : Prop} {ρ : Env F} : RealIf P ρ (.int 0) 0 := by simpa using RealIf.int (P := P) (ρ := ρ) (n := 0) (by decide)
theorem real_one {P : Prop} {ρ : Env F} : RealIf P ρ (.int 1) 1 := by simpa using RealIf.int (P := P) (ρ := ρ) (n := 1) (by decide)
theorem real_two {P : Prop} {ρ : Env F} : RealIf P ρ (.int 2) 2 := by simpa using RealIf.int (P := P) (ρ := ρ) (n := 2) (by decide)
theorem real_negOne {P : Prop} {ρ : Env F} : RealIf P ρ (.int (-1)) (-1) := by simpa using RealIf.int (P := P) (ρ := ρ) (n := -1) (by decide)

section
variable {lic : Lic F} {ρ : Env F} {K : Ctors F} {P : Prop} (hK : Sound lic ρ K) (hl : lic.TrueAt ρ)
include hK hl

theorem real_mul {a b : Expr F} {x y : ℝ} (ha : RealIf P ρ a x) (hb : RealIf P ρ b y) : Runs (mulE K a b) (RealIf P ρ · (x * y)) := by
  have := runs_mul hK hl ha hb
  rwa [← Complex.ofReal_mul] at this
theorem real_add {a b : Expr F} {x y : ℝ} (ha : RealIf P ρ a x) (hb : RealIf P ρ b y) : Runs (addE K a b) (RealIf P ρ · (x + y)) := by
  have := runs_add hK hl ha hb
  rwa [← Complex.ofReal_add] at this
theorem real_sub {a b : Expr F} {x y : ℝ} (ha : RealIf P ρ a x) (hb : RealIf P ρ b y) : Runs (subE K a b) (RealIf P ρ · (x - y)) := by
  have := runs_sub hK hl ha hb
  rwa [← Complex.ofReal_sub] at this
theorem real_neg {a : Expr F} {x : ℝ} (ha : RealIf P ρ a x) : Runs (negE K a) (RealIf P ρ · (-x)) := by
  have := runs_neg hK hl ha
  rwa [← Complex.ofReal_neg] at this
theorem real_div {a b : Expr F} {x y : ℝ} (ha : RealIf P ρ a x) (hb : RealIf P ρ b y) (hy : P → y ≠ 0) : Runs (divE K a b) (RealIf P ρ · (x / y)) := by
  have := runs_div hK hl ha hb fun p => by exact_mod_cast hy p
  rwa [← Complex.ofReal_div] at this
theorem real_cos {m : Nat} {a : Expr F} {x : ℝ} (ha : RealIf P ρ a x) : Runs (fns K m .cos a) (RealIf P ρ · (Real.cos x)) := runs_cos hK hl ha
theorem real_sin {m : Nat} {a : Expr F} {x : ℝ} (ha : RealIf P ρ a x) : Runs (fns K m .sin a) (RealIf P ρ · (Real.sin x)) := runs_sin hK hl ha
theorem real_abs {m : Nat} {a : Expr F} {x : ℝ} (ha : RealIf P ρ a x) : Runs (fns K m .abs a) (RealIf P ρ · |x|) := runs_abs hK hl ha
theorem real_sqrt {a : Expr F} {x : ℝ} (ha : RealIf P ρ a x) (hx : P → 0 ≤ x) : Runs (sqrtE K a) (RealIf P ρ · √x) := runs_sqrt hK hl ha hx

end

theorem real_lt {ρ : Env F} {P : Prop} {a b : Expr F} {x y : ℝ} (ha : RealIf P ρ a x) (hb : RealIf P ρ b y) :
    Runs (relCreate .lt a b) (RealIf P ρ · (if x < y then 1 else 0)) :=
  (runs_lt ha hb).mono fun _ h => ValIf.cast h fun _ => by split_ifs <;> simp

/-- A conditional has the value of the branch that is chosen. -/
theorem real_cond {ρ : Env F} {P : Prop} {Q : Prop} [Decidable Q] {c a b : Expr F} {x y : ℝ} (hc : RealIf P ρ c (if Q then 1 else 0))
    (ha : RealIf (P ∧ Q) ρ a x) (hb : RealIf (P ∧ ¬ Q) ρ b y) : RealIf P ρ (condCreate c a b) (if Q then x else y) :=
  (cond_val (Q := Q) (ValIf.cast hc fun _ => by split_ifs <;> simp) ha hb).cast fun _ => by split_ifs <;> rfl

theorem real_min {ρ : Env F} {P : Prop} {a b : Expr F} {x y : ℝ} (ha : RealIf P ρ a x) (hb : RealIf P ρ b y) :
    Runs (minFn a b) (RealIf P ρ · (minWhere x y)) := by
  intro r h
  unfold minFn at h
  cases hc : relCreate .lt b a with
  | error e => rw [hc] at h; cases h
  | ok c =>
    rw [hc] at h
    cases h
    exact real_cond (real_lt hb ha c hc) (hb.mono And.left) (ha.mono And.left)

/-- One step of a computation, with the lemma for its operation. -/
local macro "step" : tactic => `(tactic| refine Runs.bind (by first
  | exact real_mul (by assumption) (by assumption) (by assumption) (by assumption)
  | exact real_add (by assumption) (by assumption) (by assumption) (by assumption)
  | exact real_sub (by assumption) (by assumption) (by assumption) (by assumption)
  | exact real_neg (by assumption) (by assumption) (by assumption)
  | exact real_div (by assumption) (by assumption) (by assumption) (by assumption) (by assumption)
  | exact real_cos (by assumption) (by assumption) (by assumption)
  | exact real_sin (by assumption) (by assumption) (by assumption)
  | exact real_abs (by assumption) (by assumption) (by assumption)
  | exact real_min (by assumption) (by assumption)
  | exact real_lt (by assumption) (by assumption)) fun _ _ => ?_)

/-- The elements have the real values `v` if `P`. -/
structure QuatE.RealIf (P : Prop) (ρ : Env F) (q : QuatE F) (v : Quat ℝ) : Prop where
  w : Sym.RealIf P ρ q.w v.w
  x : Sym.RealIf P ρ q.x v.x
  y : Sym.RealIf P ρ q.y v.y
  z : Sym.RealIf P ρ q.z v.z

theorem QuatE.RealIf.of {P : Prop} {ρ : Env F} {q : QuatE F} {v : Quat ℝ} (h : q.Has ρ v.toC) : q.RealIf P ρ v :=
  have h' := QuatE.ValIf.of (P := P) h
  ⟨h'.w, h'.x, h'.y, h'.z⟩

theorem QuatE.RealIf.has {ρ : Env F} {q : QuatE F} {v : Quat ℝ} (h : q.RealIf True ρ v) : q.Has ρ v.toC :=
  QuatE.ValIf.has ⟨h.w, h.x, h.y, h.z⟩

section
variable {lic : Lic F} {ρ : Env F} {K : Ctors F} {P : Prop} (hK : Sound lic ρ K) (hl : lic.TrueAt ρ)
include hK hl

theorem real_length {a b c : Expr F} {x y z : ℝ} (ha : RealIf P ρ a x) (hb : RealIf P ρ b y) (hc : RealIf P ρ c z) :
    Runs (lengthE K a b c) (RealIf P ρ · √(x * x + y * y + z * z)) := by
  unfold lengthE
  iterate 5 step
  refine real_sqrt hK hl (by assumption) fun _ => ?_
  nlinarith [mul_self_nonneg x, mul_self_nonneg y, mul_self_nonneg z]

theorem real_norm {q : QuatE F} {v : Quat ℝ} (h : q.RealIf P ρ v) : Runs (q.norm K) (RealIf P ρ · v.norm) := by
  obtain ⟨_, _, _, _⟩ := h
  unfold QuatE.norm QuatE.squaredNorm
  refine Runs.bind (Q := (RealIf P ρ · v.squaredNorm)) ?_ fun n hn => ?_
  · iterate 6 step
    exact real_add hK hl (by assumption) (by assumption)
  · refine real_sqrt hK hl hn fun _ => ?_
    unfold Quat.squaredNorm
    nlinarith [mul_self_nonneg v.w, mul_self_nonneg v.x, mul_self_nonneg v.y, mul_self_nonneg v.z]

theorem real_normalized {q : QuatE F} {v : Quat ℝ} (h : q.RealIf P ρ v) (h0 : P → v.norm ≠ 0) : Runs (q.normalized K) (·.RealIf P ρ v.normalized) := by
  have hn := real_norm hK hl h
  obtain ⟨_, _, _, _⟩ := h
  unfold QuatE.normalized
  refine Runs.bind hn fun n _ => ?_
  iterate 4 step
  exact Runs.pure ⟨by assumption, by assumption, by assumption, by assumption⟩

theorem real_fromAngleAxis {m : Nat} {a b c d : Expr F} {θ x y z : ℝ} (ha : RealIf P ρ a θ) (hb : RealIf P ρ b x) (hc : RealIf P ρ c y)
    (hd : RealIf P ρ d z) : Runs (fromAngleAxisE K m a b c d) (·.RealIf P ρ (fromAngleAxis θ x y z)) := by
  have h2 : RealIf P ρ (.int 2) 2 := real_two
  have hne : P → (2 : ℝ) ≠ 0 := fun _ => two_ne_zero
  unfold fromAngleAxisE
  iterate 6 step
  exact Runs.pure ⟨by assumption, by assumption, by assumption, by assumption⟩

theorem norm_small (x y z : ℝ) : (Quat.mk 1 (x / 2) (y / 2) (z / 2)).norm ≠ 0 := by
  refine Real.sqrt_ne_zero'.2 ?_
  unfold Quat.squaredNorm
  nlinarith [mul_self_nonneg (x / 2), mul_self_nonneg (y / 2), mul_self_nonneg (z / 2)]

theorem real_fromRotationVector {m : Nat} {a b c : Expr F} {x y z : ℝ} {eps : Option (Expr F)} {e : Option ℝ} (ha : RealIf P ρ a x)
    (hb : RealIf P ρ b y) (hc : RealIf P ρ c z) (he : match eps, e with | some ee, some ev => RealIf P ρ ee ev | none, none => True | _, _ => False)
    (h0 : P → match e with | some ev => 0 ≤ ev | none => √(x * x + y * y + z * z) ≠ 0) :
    Runs (fromRotationVectorE K m a b c eps) (·.RealIf P ρ (fromRotationVector x y z e)) := by
  set n := √(x * x + y * y + z * z) with hn
  have h2 : ∀ {Q : Prop}, RealIf Q ρ (.int 2) 2 := real_two
  have hne : ∀ {Q : Prop}, Q → (2 : ℝ) ≠ 0 := fun _ => two_ne_zero
  unfold fromRotationVectorE
  refine Runs.bind (real_length hK hl ha hb hc) fun en hen => ?_
  refine Runs.bind (real_div hK hl hen h2 hne) fun eh heh => ?_
  -- the quotient has a value where the angle is not zero
  refine Runs.bind (real_sin hK hl heh) fun es hes => ?_
  refine Runs.bind (real_div hK hl (P := P ∧ n ≠ 0) (hes.mono And.left) (hen.mono And.left) And.right) fun eq heq => ?_
  cases eps with
  | none =>
    cases e with
    | some ev => exact he.elim
    | none =>
      have hq : RealIf P ρ eq (Real.sin (n / 2) / n) := heq.mono fun p => ⟨p, h0 p⟩
      simp only
      iterate 4 step
      exact Runs.pure ⟨by assumption, by assumption, by assumption, by assumption⟩
  | some ee =>
    cases e with
    | none => exact he.elim
    | some ev =>
      simp only
      refine Runs.bind (real_div hK hl ha h2 hne) fun e1 h1 => ?_
      refine Runs.bind (real_div hK hl hb h2 hne) fun e2 h3 => ?_
      refine Runs.bind (real_div hK hl hc h2 hne) fun e3 h4 => ?_
      refine Runs.bind (real_normalized hK hl (v := ⟨1, x / 2, y / 2, z / 2⟩) ⟨real_one, h1, h3, h4⟩ fun _ => norm_small hK hl x y z) fun sm hsm => ?_
      refine Runs.bind (real_lt he hen) fun ec hec => ?_
      have hq : RealIf (P ∧ ev < n) ρ eq (Real.sin (n / 2) / n) := heq.mono fun p => ⟨p.1, fun h => by
        have := h0 p.1
        have h5 := p.2
        rw [h] at h5
        exact absurd h5 (not_lt.2 this)⟩
      refine Runs.bind (real_cos hK hl heh) fun e4 h6 => ?_
      refine Runs.bind (real_mul hK hl (ha.mono And.left) hq) fun e5 h7 => ?_
      refine Runs.bind (real_mul hK hl (hb.mono And.left) hq) fun e6 h8 => ?_
      refine Runs.bind (real_mul hK hl (hc.mono And.left) hq) fun e7 h9 => ?_
      exact Runs.pure ⟨real_cond hec (h6.mono And.left) (hsm.w.mono And.left), real_cond hec h7 (hsm.x.mono And.left),
        real_cond hec h8 (hsm.y.mono And.left), real_cond hec h9 (hsm.z.mono And.left)⟩

/-- The sign of the real part. -/
theorem real_sign {ew : Expr F} {w : ℝ} (hw : RealIf P ρ ew w) {c : Expr F} (hc : RealIf P ρ c (if w < 0 then 1 else 0)) :
    RealIf P ρ (condCreate c (.int (-1)) (.int 1)) (if w < 0 then -1 else 1) := real_cond hc real_negOne real_one

theorem real_toAngleAxis {m : Nat} {q : QuatE F} {v : Quat ℝ} {eps : Option (Expr F)} {e : Option ℝ} (hq : q.RealIf P ρ v)
    (he : match eps, e with | some ee, some ev => RealIf P ρ ee ev | none, none => True | _, _ => False)
    (h0 : P → match e with | some ev => 0 ≤ ev | none => √(v.x * v.x + v.y * v.y + v.z * v.z) ≠ 0) :
    Runs (toAngleAxisE K m q eps) fun r => RealIf P ρ r.1 (toAngleAxis v e).1 ∧
      ∃ a b c, r.2 = [a, b, c] ∧ RealIf P ρ a (toAngleAxis v e).2.1 ∧ RealIf P ρ b (toAngleAxis v e).2.2.1 ∧ RealIf P ρ c (toAngleAxis v e).2.2.2 := by
  set n := √(v.x * v.x + v.y * v.y + v.z * v.z) with hn
  unfold toAngleAxisE
  refine Runs.bind (real_length hK hl hq.x hq.y hq.z) fun en hen => ?_
  by_cases hz : isInt 0 en = true
  · rw [if_pos hz]
    refine Runs.pure ?_
    have hn0 : P → n = 0 := fun p => by
      have := hv_isZero (hen.2 p) hz
      exact_mod_cast this
    have key : P → toAngleAxis v e = (0, 1, 0, 0) := by
      intro p
      have h1 := h0 p
      have h2 := hn0 p
      unfold toAngleAxis
      cases e with
      | none => exact absurd h2 h1
      | some ev =>
        simp only at h1 ⊢
        rw [← hn, h2, if_neg (not_lt.2 h1), if_neg (not_lt.2 h1)]
    exact ⟨real_zero.cast fun p => by rw [key p], _, _, _, rfl, real_one.cast fun p => by rw [key p], real_zero.cast fun p => by rw [key p],
      real_zero.cast fun p => by rw [key p]⟩
  · rw [if_neg hz]
    have hen' : RealIf (P ∧ n ≠ 0) ρ en n := hen.mono And.left
    refine Runs.bind (real_abs hK hl hq.w) fun ea hea => ?_
    refine Runs.bind (runs_atan2 hK hl hen' (hea.mono And.left) fun p h => p.2 h.2) fun et het => ?_
    refine Runs.bind (real_mul hK hl het real_two) fun eg heg => ?_
    refine Runs.bind (real_lt hq.w real_zero) fun ec hec => ?_
    refine Runs.bind (real_neg hK hl hen) fun em hem => ?_
    have hfl : RealIf (P ∧ n ≠ 0) ρ (condCreate ec em en) (if v.w < 0 then -n else n) :=
      (real_cond hec (hem.mono And.left) (hen.mono And.left)).mono And.left
    have hne : P ∧ n ≠ 0 → (if v.w < 0 then -n else n) ≠ 0 := by
      rintro ⟨_, h⟩
      split_ifs
      · exact neg_ne_zero.2 h
      · exact h
    refine Runs.bind (real_div hK hl (hq.x.mono And.left) hfl hne) fun ex hex => ?_
    refine Runs.bind (real_div hK hl (hq.y.mono And.left) hfl hne) fun ey hey => ?_
    refine Runs.bind (real_div hK hl (hq.z.mono And.left) hfl hne) fun ez hez => ?_
    cases eps with
    | none =>
      cases e with
      | some ev => exact he.elim
      | none => exact Runs.pure ⟨heg.mono fun p => ⟨p, h0 p⟩, _, _, _, rfl, hex.mono fun p => ⟨p, h0 p⟩, hey.mono fun p => ⟨p, h0 p⟩, hez.mono fun p => ⟨p, h0 p⟩⟩
    | some ee =>
      cases e with
      | none => exact he.elim
      | some ev =>
        simp only
        refine Runs.bind (real_lt he hen) fun ed hed => ?_
        have hp : P ∧ ev < n → P ∧ n ≠ 0 := fun p => ⟨p.1, fun h => by
          have h1 := h0 p.1
          have h5 := p.2
          rw [h] at h5
          exact absurd h5 (not_lt.2 h1)⟩
        refine Runs.pure ⟨real_cond hed (heg.mono hp) real_zero, _, _, _, rfl, ?_, ?_, ?_⟩
        · refine (real_cond hed (hex.mono hp) real_one).cast fun _ => ?_
          unfold toAngleAxis
          simp only [← hn, gt_iff_lt]
          split_ifs <;> rfl
        · refine (real_cond hed (hey.mono hp) real_zero).cast fun _ => ?_
          unfold toAngleAxis
          simp only [← hn, gt_iff_lt]
          split_ifs <;> rfl
        · refine (real_cond hed (hez.mono hp) real_zero).cast fun _ => ?_
          unfold toAngleAxis
          simp only [← hn, gt_iff_lt]
          split_ifs <;> rfl

theorem real_toRotationVector {m : Nat} {q : QuatE F} {v : Quat ℝ} {eps : Option (Expr F)} {e : Option ℝ} (hq : q.RealIf P ρ v)
    (he : match eps, e with | some ee, some ev => RealIf P ρ ee ev | none, none => True | _, _ => False)
    (h0 : P → match e with | some ev => 0 ≤ ev | none => √(v.x * v.x + v.y * v.y + v.z * v.z) ≠ 0) :
    Runs (toRotationVectorE K m q eps) fun r =>
      ∃ a b c, r = [a, b, c] ∧ RealIf P ρ a (toRotationVector v e).1 ∧ RealIf P ρ b (toRotationVector v e).2.1 ∧ RealIf P ρ c (toRotationVector v e).2.2 := by
  set n := √(v.x * v.x + v.y * v.y + v.z * v.z) with hn
  unfold toRotationVectorE
  refine Runs.bind (real_lt hq.w real_zero) fun ec hec => ?_
  have hs := real_sign hK hl hq.w hec
  refine Runs.bind (real_length hK hl hq.x hq.y hq.z) fun en hen => ?_
  have hen' : RealIf (P ∧ n ≠ 0) ρ en n := hen.mono And.left
  refine Runs.bind (real_abs hK hl hq.w) fun ea hea => ?_
  refine Runs.bind (runs_atan2 hK hl hen' (hea.mono And.left) fun p h => p.2 h.2) fun et het => ?_
  refine Runs.bind (real_mul hK hl het real_two) fun eg heg => ?_
  refine Runs.bind (real_div hK hl heg hen' And.right) fun ed hed => ?_
  cases eps with
  | none =>
    cases e with
    | some ev => exact he.elim
    | none =>
      have hd : RealIf P ρ ed (atan2 n |v.w| * 2 / n) := hed.mono fun p => ⟨p, h0 p⟩
      obtain ⟨_, _, _, _⟩ := hq
      simp only
      iterate 6 step
      exact Runs.pure ⟨_, _, _, rfl, by assumption, by assumption, by assumption⟩
  | some ee =>
    cases e with
    | none => exact he.elim
    | some ev =>
      simp only
      have hp : P ∧ ev < n → P ∧ n ≠ 0 := fun p => ⟨p.1, fun h => by
        have h1 := h0 p.1
        have h5 := p.2
        rw [h] at h5
        exact absurd h5 (not_lt.2 h1)⟩
      refine Runs.bind (real_lt he hen) fun e1 h1 => ?_
      refine Runs.bind (real_mul hK hl hed (hs.mono And.left)) fun e2 h2 => ?_
      refine Runs.bind (real_mul hK hl real_two hs) fun e3 h3 => ?_
      have hsc := real_cond h1 (h2.mono hp) (h3.mono And.left)
      obtain ⟨_, _, _, _⟩ := hq
      iterate 3 step
      exact Runs.pure ⟨_, _, _, rfl, by assumption, by assumption, by assumption⟩

theorem real_toRotationVectorAcos {m : Nat} {q : QuatE F} {v : Quat ℝ} {eps : Option (Expr F)} {e : Option ℝ} (hq : q.RealIf P ρ v)
    (he : match eps, e with | some ee, some ev => RealIf P ρ ee ev | none, none => True | _, _ => False)
    (h0 : P → match e with | some ev => 0 ≤ ev | none => |v.w| < 1) :
    Runs (toRotationVectorAcosE K m q eps) fun r =>
      ∃ a b c, r = [a, b, c] ∧ RealIf P ρ a (toRotationVectorAcos v e).1 ∧ RealIf P ρ b (toRotationVectorAcos v e).2.1 ∧
        RealIf P ρ c (toRotationVectorAcos v e).2.2 := by
  set s : ℝ := if v.w < 0 then -1 else 1 with hsd
  set w := minWhere (v.w * s) 1 with hwd
  have habs : v.w * s = |v.w| := by
    rw [hsd]
    split_ifs with h
    · rw [abs_of_neg h]; ring
    · rw [abs_of_nonneg (not_lt.1 h), mul_one]
  have hw0 : 0 ≤ w ∧ w ≤ 1 := by
    rw [hwd, habs]
    unfold minWhere
    split_ifs with h
    · exact ⟨zero_le_one, le_rfl⟩
    · exact ⟨abs_nonneg _, not_lt.1 h⟩
  set n := √(1 - w * w) with hn
  have hnn : 0 ≤ 1 - w * w := by nlinarith [hw0.1, hw0.2]
  unfold toRotationVectorAcosE
  refine Runs.bind (real_lt hq.w real_zero) fun ec hec => ?_
  have hs := real_sign hK hl hq.w hec
  obtain ⟨hqw, _, _, _⟩ := hq
  have h1 : RealIf P ρ (.int 1) 1 := real_one
  iterate 7 step
  refine Runs.bind (real_sqrt hK hl (x := 1 - w * w) (by assumption) fun _ => hnn) fun en hen => ?_
  refine Runs.bind (runs_acos hK hl (x := w) (P := P) (by assumption) fun _ => ⟨by linarith [hw0.1], hw0.2⟩) fun ea hea => ?_
  refine Runs.bind (real_mul hK hl real_two hea) fun eb heb => ?_
  refine Runs.bind (real_div hK hl (P := P ∧ n ≠ 0) (heb.mono And.left) (hen.mono And.left) And.right) fun ed hed => ?_
  cases eps with
  | none =>
    cases e with
    | some ev => exact he.elim
    | none =>
      have hd : RealIf P ρ ed (2 * Real.arccos w / n) := hed.mono fun p => ⟨p, by
        have h2 := h0 p
        simp only at h2
        have h3 : w = |v.w| := by
          rw [hwd, habs]
          unfold minWhere
          rw [if_neg (not_lt.2 h2.le)]
        refine Real.sqrt_ne_zero'.2 ?_
        have h4 := abs_nonneg v.w
        rw [h3]
        nlinarith⟩
      simp only
      iterate 3 step
      exact Runs.pure ⟨_, _, _, rfl, by assumption, by assumption, by assumption⟩
  | some ee =>
    cases e with
    | none => exact he.elim
    | some ev =>
      simp only
      have hp : P ∧ ev < n → P ∧ n ≠ 0 := fun p => ⟨p.1, fun h => by
        have h1 := h0 p.1
        have h5 := p.2
        rw [h] at h5
        exact absurd h5 (not_lt.2 h1)⟩
      refine Runs.bind (real_lt he hen) fun e1 h2 => ?_
      have hsc := real_cond h2 (hed.mono hp) real_two
      iterate 3 step
      exact Runs.pure ⟨_, _, _, rfl, by assumption, by assumption, by assumption⟩

omit hK hl in
theorem real_where {Q : Prop} [Decidable Q] {c : Expr F} {a b : QuatE F} {u v : Quat ℝ} (hc : RealIf P ρ c (if Q then 1 else 0))
    (ha : a.RealIf (P ∧ Q) ρ u) (hb : b.RealIf (P ∧ ¬ Q) ρ v) : (QuatE.where' c a b).RealIf P ρ (Quat.where' Q u v) :=
  ⟨real_cond hc ha.w hb.w, real_cond hc ha.x hb.x, real_cond hc ha.y hb.y, real_cond hc ha.z hb.z⟩

theorem real_fromRotationMatrix {r00 r01 r02 r10 r11 r12 r20 r21 r22 : Expr F} {M : Matrix (Fin 3) (Fin 3) ℝ}
    (h00 : RealIf P ρ r00 (M 0 0)) (h01 : RealIf P ρ r01 (M 0 1)) (h02 : RealIf P ρ r02 (M 0 2))
    (h10 : RealIf P ρ r10 (M 1 0)) (h11 : RealIf P ρ r11 (M 1 1)) (h12 : RealIf P ρ r12 (M 1 2))
    (h20 : RealIf P ρ r20 (M 2 0)) (h21 : RealIf P ρ r21 (M 2 1)) (h22 : RealIf P ρ r22 (M 2 2)) :
    Runs (fromRotationMatrixE K r00 r01 r02 r10 r11 r12 r20 r21 r22) (·.RealIf P ρ (fromRotationMatrix M)) := by
  -- the four candidates have values where the square root is positive
  have half : ∀ {Q : Prop} {e : Expr F} {x : ℝ}, RealIf P ρ e x → (Q → P ∧ 0 < x) → Runs (sqrtE K e) (RealIf Q ρ · √x) := fun h hq =>
    real_sqrt hK hl (h.mono fun p => (hq p).1) fun p => (hq p).2.le
  have hne : ∀ {Q : Prop}, Q → (2 : ℝ) ≠ 0 := fun _ => two_ne_zero
  have hone : ∀ {Q : Prop}, RealIf Q ρ (.int 1) 1 := real_one
  have htwo : ∀ {Q : Prop}, RealIf Q ρ (.int 2) 2 := real_two
  have hdiv : ∀ {Q : Prop} {x : ℝ}, (Q → P ∧ 0 < x) → Q → √x * 2 ≠ 0 := fun hq q => mul_ne_zero (Real.sqrt_ne_zero'.2 (hq q).2) two_ne_zero
  have cand : ∀ {Q : Prop} {t : Expr F} {x : ℝ}, (Q → P ∧ 0 < x) → RealIf P ρ t x → ∀ {α : Type} {f : Expr F → Expr F → Res α} {R : α → Prop},
      (∀ a b, RealIf Q ρ a √x → RealIf Q ρ b (√x * 2) → Runs (f a b) R) → Runs (sqrtE K t >>= fun a => mulE K a (.int 2) >>= f a) R :=
    fun hq ht _ _ _ hf => Runs.bind (half ht hq) fun a ha => Runs.bind (real_mul hK hl ha htwo) fun b hb => hf a b ha hb
  unfold fromRotationMatrixE
  refine Runs.bind (real_add hK hl hone h00) fun a1 k1 => ?_
  refine Runs.bind (real_add hK hl k1 h11) fun a2 k2 => ?_
  refine Runs.bind (real_add hK hl k2 h22) fun a3 k3 => ?_
  refine cand (Q := P ∧ 0 < 1 + M 0 0 + M 1 1 + M 2 2) id k3 fun t0 s0 ht0 hs0 => ?_
  refine Runs.bind (real_div hK hl ht0 htwo hne) fun b1 l1 => ?_
  refine Runs.bind (real_sub hK hl h21 h12) fun d1 m1 => ?_
  refine Runs.bind (real_div hK hl (m1.mono And.left) hs0 (hdiv id)) fun b2 l2 => ?_
  refine Runs.bind (real_sub hK hl h02 h20) fun d2 m2 => ?_
  refine Runs.bind (real_div hK hl (m2.mono And.left) hs0 (hdiv id)) fun b3 l3 => ?_
  refine Runs.bind (real_sub hK hl h10 h01) fun d3 m3 => ?_
  refine Runs.bind (real_div hK hl (m3.mono And.left) hs0 (hdiv id)) fun b4 l4 => ?_
  refine Runs.bind (real_add hK hl hone h00) fun a4 k4 => ?_
  refine Runs.bind (real_sub hK hl k4 h11) fun a5 k5 => ?_
  refine Runs.bind (real_sub hK hl k5 h22) fun a6 k6 => ?_
  refine cand (Q := P ∧ 0 < 1 + M 0 0 - M 1 1 - M 2 2) id k6 fun t1 s1 ht1 hs1 => ?_
  refine Runs.bind (real_sub hK hl h21 h12) fun d4 m4 => ?_
  refine Runs.bind (real_div hK hl (m4.mono And.left) hs1 (hdiv id)) fun b5 l5 => ?_
  refine Runs.bind (real_div hK hl ht1 htwo hne) fun b6 l6 => ?_
  refine Runs.bind (real_add hK hl h01 h10) fun d5 m5 => ?_
  refine Runs.bind (real_div hK hl (m5.mono And.left) hs1 (hdiv id)) fun b7 l7 => ?_
  refine Runs.bind (real_add hK hl h20 h02) fun d6 m6 => ?_
  refine Runs.bind (real_div hK hl (m6.mono And.left) hs1 (hdiv id)) fun b8 l8 => ?_
  refine Runs.bind (real_sub hK hl hone h00) fun a7 k7 => ?_
  refine Runs.bind (real_add hK hl k7 h11) fun a8 k8 => ?_
  refine Runs.bind (real_sub hK hl k8 h22) fun a9 k9 => ?_
  refine cand (Q := P ∧ 0 < 1 - M 0 0 + M 1 1 - M 2 2) id k9 fun t2 s2 ht2 hs2 => ?_
  refine Runs.bind (real_sub hK hl h02 h20) fun d7 m7 => ?_
  refine Runs.bind (real_div hK hl (m7.mono And.left) hs2 (hdiv id)) fun b9 l9 => ?_
  refine Runs.bind (real_add hK hl h01 h10) fun d8 m8 => ?_
  refine Runs.bind (real_div hK hl (m8.mono And.left) hs2 (hdiv id)) fun b10 l10 => ?_
  refine Runs.bind (real_div hK hl ht2 htwo hne) fun b11 l11 => ?_
  refine Runs.bind (real_add hK hl h12 h21) fun d9 m9 => ?_
  refine Runs.bind (real_div hK hl (m9.mono And.left) hs2 (hdiv id)) fun b12 l12 => ?_
  refine Runs.bind (real_sub hK hl hone h00) fun a10 k10 => ?_
  refine Runs.bind (real_sub hK hl k10 h11) fun a11 k11 => ?_
  refine Runs.bind (real_add hK hl k11 h22) fun a12 k12 => ?_
  refine cand (Q := P ∧ 0 < 1 - M 0 0 - M 1 1 + M 2 2) id k12 fun t3 s3 ht3 hs3 => ?_
  refine Runs.bind (real_sub hK hl h10 h01) fun d10 m10 => ?_
  refine Runs.bind (real_div hK hl (m10.mono And.left) hs3 (hdiv id)) fun b13 l13 => ?_
  refine Runs.bind (real_add hK hl h20 h02) fun d11 m11 => ?_
  refine Runs.bind (real_div hK hl (m11.mono And.left) hs3 (hdiv id)) fun b14 l14 => ?_
  refine Runs.bind (real_add hK hl h21 h12) fun d12 m12 => ?_
  refine Runs.bind (real_div hK hl (m12.mono And.left) hs3 (hdiv id)) fun b15 l15 => ?_
  refine Runs.bind (real_div hK hl ht3 htwo hne) fun b16 l16 => ?_
  refine Runs.bind (real_add hK hl h00 h11) fun c1 n1 => ?_
  refine Runs.bind (real_add hK hl n1 h22) fun c2 n2 => ?_
  refine Runs.bind (real_lt real_zero n2) fun c3 n3 => ?_
  refine Runs.bind (real_lt h00 h11) fun c4 n4 => ?_
  refine Runs.bind (real_lt h11 h22) fun c5 n5 => ?_
  refine Runs.bind (real_lt h00 h22) fun c6 n6 => ?_
  refine Runs.pure ?_
  have q0 : (QuatE.mk b1 b2 b3 b4).RealIf _ ρ ⟨_, _, _, _⟩ := ⟨l1, l2, l3, l4⟩
  have q1 : (QuatE.mk b5 b6 b7 b8).RealIf _ ρ ⟨_, _, _, _⟩ := ⟨l5, l6, l7, l8⟩
  have q2 : (QuatE.mk b9 b10 b11 b12).RealIf _ ρ ⟨_, _, _, _⟩ := ⟨l9, l10, l11, l12⟩
  have q3 : (QuatE.mk b13 b14 b15 b16).RealIf _ ρ ⟨_, _, _, _⟩ := ⟨l13, l14, l15, l16⟩
  have mono : ∀ {Q Q' : Prop} {q : QuatE F} {v : Quat ℝ}, q.RealIf Q ρ v → (Q' → Q) → q.RealIf Q' ρ v := fun h hq =>
    ⟨h.w.mono hq, h.x.mono hq, h.y.mono hq, h.z.mono hq⟩
  refine real_where n3 (mono q0 fun p => ⟨p.1, by linarith [p.2]⟩) (real_where (n4.mono And.left) (real_where (n5.mono fun p => p.1.1) (mono q3 ?_) (mono q2 ?_))
    (real_where (n6.mono fun p => p.1.1) (mono q3 ?_) (mono q1 ?_)))
  · rintro ⟨⟨⟨p, h1⟩, h2⟩, h3⟩
    exact ⟨p, by linarith⟩
  · rintro ⟨⟨⟨p, h1⟩, h2⟩, h3⟩
    exact ⟨p, by linarith⟩
  · rintro ⟨⟨⟨p, h1⟩, h2⟩, h3⟩
    exact ⟨p, by linarith⟩
  · rintro ⟨⟨⟨p, h1⟩, h2⟩, h3⟩
    exact ⟨p, by linarith⟩

end

end Wf.Sym
