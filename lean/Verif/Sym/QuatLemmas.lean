import Verif.Sym.QuatSpec
import Verif.Sym.DerivativeLemmas
import Verif.Geo.RotationLemmas

/-!
# Values of expressions built in several steps
-/

namespace Wf.Sym

open Geo

/-- If the computation succeeds, its result has the property. -/
def Runs {α : Type} (x : Res α) (Q : α → Prop) : Prop := ∀ a, x = .ok a → Q a

theorem Runs.bind {α β : Type} {x : Res α} {f : α → Res β} {Q : α → Prop} {R : β → Prop} (h : Runs x Q) (hf : ∀ a, Q a → Runs (f a) R) :
    Runs (x >>= f) R := by
  intro b hb
  cases x with
  | error e => cases hb
  | ok a => exact hf a (h a rfl) b hb

theorem Runs.pure {α : Type} {a : α} {R : α → Prop} (h : R a) : Runs (Pure.pure a : Res α) R := by
  intro b hb
  cases hb
  exact h

theorem Runs.mono {α : Type} {x : Res α} {Q R : α → Prop} (h : Runs x Q) (hf : ∀ a, Q a → R a) : Runs x R := fun a ha => hf a (h a ha)

variable {F : Type} [DecidableEq F] [FnSem F]

/-- Well formed, and the value is `z` if `P`. -/
def ValIf (P : Prop) (ρ : Env F) (e : Expr F) (z : ℂ) : Prop := Good e ∧ (P → eval ρ e = some z)

theorem ValIf.mono {P P' : Prop} {ρ : Env F} {e : Expr F} {z : ℂ} (h : ValIf P ρ e z) (hp : P' → P) : ValIf P' ρ e z := ⟨h.1, fun p => h.2 (hp p)⟩
theorem ValIf.of {P : Prop} {ρ : Env F} {e : Expr F} {z : ℂ} (h : Has ρ e z) : ValIf P ρ e z := ⟨h.1, fun _ => h.2⟩
theorem ValIf.cast {P : Prop} {ρ : Env F} {e : Expr F} {z w : ℂ} (h : ValIf P ρ e z) (hw : P → z = w) : ValIf P ρ e w :=
  ⟨h.1, fun p => by rw [h.2 p, hw p]⟩
theorem ValIf.has {ρ : Env F} {e : Expr F} {z : ℂ} (h : ValIf True ρ e z) : Has ρ e z := ⟨h.1, h.2 trivial⟩
theorem ValIf.int {P : Prop} {ρ : Env F} {n : Int} (h : InI64 n) : ValIf P ρ (.int n) (n : ℂ) := .of ⟨good_int.2 h, eval_int ρ n⟩

section
variable {lic : Lic F} {ρ : Env F} {K : Ctors F} {P : Prop} (hK : Sound lic ρ K) (hl : lic.TrueAt ρ)
include hK hl

theorem runs_mul {a b : Expr F} {x y : ℂ} (ha : ValIf P ρ a x) (hb : ValIf P ρ b y) : Runs (mulE K a b) (ValIf P ρ · (x * y)) :=
  fun r h => ⟨(hK.mul [a, b] r (by simpa using ⟨ha.1, hb.1⟩) h).1, fun p => (hv_mul hK hl ⟨ha.1, ha.2 p⟩ ⟨hb.1, hb.2 p⟩ h).2⟩

theorem runs_add {a b : Expr F} {x y : ℂ} (ha : ValIf P ρ a x) (hb : ValIf P ρ b y) : Runs (addE K a b) (ValIf P ρ · (x + y)) :=
  fun r h => ⟨(hK.add [a, b] r (by simpa using ⟨ha.1, hb.1⟩) h).1, fun p => (hv_add hK hl ⟨ha.1, ha.2 p⟩ ⟨hb.1, hb.2 p⟩ h).2⟩

theorem runs_neg {a : Expr F} {x : ℂ} (ha : ValIf P ρ a x) : Runs (negE K a) (ValIf P ρ · (-x)) :=
  fun r h => ⟨(hK.mul [.int (-1), a] r (by simpa using ⟨good_negOne, ha.1⟩) h).1, fun p => (hv_neg hK hl ⟨ha.1, ha.2 p⟩ h).2⟩

theorem runs_sub {a b : Expr F} {x y : ℂ} (ha : ValIf P ρ a x) (hb : ValIf P ρ b y) : Runs (subE K a b) (ValIf P ρ · (x - y)) := by
  intro r h
  refine ⟨?_, fun p => (hv_sub hK hl ⟨ha.1, ha.2 p⟩ ⟨hb.1, hb.2 p⟩ h).2⟩
  unfold subE at h
  cases hm : K.mul [.int (-1), b] with
  | error e => simp [hm] at h
  | ok m =>
    simp only [hm] at h
    exact (hK.add [a, m] r (by simpa using ⟨ha.1, (hK.mul _ _ (by simpa using ⟨good_negOne, hb.1⟩) hm).1⟩) h).1

theorem runs_div {a b : Expr F} {x y : ℂ} (ha : ValIf P ρ a x) (hb : ValIf P ρ b y) (hy : P → y ≠ 0) : Runs (divE K a b) (ValIf P ρ · (x / y)) := by
  intro r h
  refine ⟨?_, fun p => by rw [div_eq_mul_inv]; exact (hv_div hK hl ⟨ha.1, ha.2 p⟩ ⟨hb.1, hb.2 p⟩ (hy p) h).2⟩
  unfold divE at h
  cases hm : K.pow b (.int (-1)) with
  | error e => simp [hm] at h
  | ok m =>
    simp only [hm] at h
    exact (hK.mul [a, m] r (by simpa using ⟨ha.1, (hK.pow _ _ _ hb.1 good_negOne hm).1⟩) h).1

theorem runs_fn {f : BuiltIn} {m : Nat} {a : Expr F} {x z : ℂ} (ha : ValIf P ρ a x) (hz : P → fnVal f [x] = some z) :
    Runs (fns K m f a) (ValIf P ρ · z) :=
  fun r h => ⟨(fns_ok hK m f a r ha.1 h).1, fun p => (hv_fn hK hl ⟨ha.1, ha.2 p⟩ (hz p) h).2⟩

theorem runs_cos {m : Nat} {a : Expr F} {x : ℝ} (ha : ValIf P ρ a x) : Runs (fns K m .cos a) (ValIf P ρ · (Real.cos x : ℝ)) :=
  runs_fn hK hl ha fun _ => by rw [Complex.ofReal_cos]; rfl

theorem runs_sin {m : Nat} {a : Expr F} {x : ℝ} (ha : ValIf P ρ a x) : Runs (fns K m .sin a) (ValIf P ρ · (Real.sin x : ℝ)) :=
  runs_fn hK hl ha fun _ => by rw [Complex.ofReal_sin]; rfl

theorem runs_abs {m : Nat} {a : Expr F} {x : ℝ} (ha : ValIf P ρ a x) : Runs (fns K m .abs a) (ValIf P ρ · (|x| : ℝ)) :=
  runs_fn hK hl ha fun _ => by
    show some ((‖(x : ℂ)‖ : ℝ) : ℂ) = _
    rw [Complex.norm_real, Real.norm_eq_abs]

theorem runs_acos {m : Nat} {a : Expr F} {x : ℝ} (ha : ValIf P ρ a x) (hx : P → -1 ≤ x ∧ x ≤ 1) :
    Runs (fns K m .arccos a) (ValIf P ρ · (Real.arccos x : ℝ)) :=
  runs_fn hK hl ha fun p => by
    obtain ⟨h1, h2⟩ := hx p
    have e1 : csqrt (1 - (x : ℂ) ^ 2) = (Real.cos (Real.arcsin x) : ℝ) := by
      rw [Real.cos_arcsin]
      unfold csqrt
      rw [show (1 - (x : ℂ) ^ 2) = ((1 - x ^ 2 : ℝ) : ℂ) by push_cast; rfl, Real.sqrt_eq_rpow, Complex.ofReal_cpow (by nlinarith)]
      norm_num
    have e2 : Complex.I * x + csqrt (1 - (x : ℂ) ^ 2) = Complex.exp ((Real.arcsin x : ℝ) * Complex.I) := by
      rw [e1, Complex.exp_mul_I, ← Complex.ofReal_cos, ← Complex.ofReal_sin, Real.sin_arcsin h1 h2]
      ring
    show some ((Real.pi : ℂ) / 2 - -Complex.I * Complex.log (Complex.I * x + csqrt (1 - (x : ℂ) ^ 2))) = _
    have b1 := Real.neg_pi_div_two_le_arcsin x
    have b2 := Real.arcsin_le_pi_div_two x
    have pp := Real.pi_pos
    rw [e2, Complex.log_exp (by simp; linarith) (by simp; linarith), Real.arccos_eq_pi_div_two_sub_arcsin]
    congr 1
    push_cast
    linear_combination (Real.arcsin x : ℂ) * Complex.I_mul_I

theorem runs_sqrt {a : Expr F} {x : ℝ} (ha : ValIf P ρ a x) (hx : P → 0 ≤ x) : Runs (sqrtE K a) (ValIf P ρ · (√x : ℝ)) := by
  refine Runs.bind (Q := fun h => HasVal ρ h (1 / 2)) (fun h hh => hv_half hK hl hh) fun h hh => ?_
  intro r hr
  refine ⟨(hK.pow a h r ha.1 hh.1 hr).1, fun p => (hv_pow hK hl ⟨ha.1, ha.2 p⟩ hh ?_ hr).2⟩
  rcases (hx p).eq_or_lt with h0 | h0
  · rw [← h0, Complex.ofReal_zero, powVal_zero_pos (by norm_num)]; simp
  · rw [powVal_of_ne (by exact_mod_cast h0.ne'), Real.sqrt_eq_rpow, Complex.ofReal_cpow h0.le]
    norm_num

theorem runs_atan2 {a b : Expr F} {y x : ℝ} (ha : ValIf P ρ a y) (hb : ValIf P ρ b x) (h0 : P → ¬ (x = 0 ∧ y = 0)) :
    Runs (atan2Fn K a b) (ValIf P ρ · (atan2 y x : ℝ)) := by
  intro r h
  have h1 := atan2Fn_ok hK ha.1 hb.1 h
  refine ⟨h1.1, fun p => h1.2 hl _ ?_⟩
  unfold atan2Val
  rw [ha.2 p, hb.2 p]
  show (if (y : ℂ).im = 0 ∧ (x : ℂ).im = 0 ∧ ¬ ((x : ℂ) = 0 ∧ (y : ℂ) = 0) then some ((Complex.arg ⟨(x : ℂ).re, (y : ℂ).re⟩ : ℝ) : ℂ) else none) = _
  rw [if_pos ⟨by simp, by simp, by simpa using h0 p⟩]
  rfl

end

/-- The value of a comparison. -/
theorem runs_lt {ρ : Env F} {P : Prop} {a b : Expr F} {x y : ℝ} (ha : ValIf P ρ a x) (hb : ValIf P ρ b y) [Decidable (x < y)] :
    Runs (relCreate .lt a b) (ValIf P ρ · (if x < y then 1 else 0)) := by
  intro r h
  have h1 := relCreate_ok ρ ha.1 hb.1 h
  refine ⟨h1.1, fun p => h1.2 _ ?_⟩
  unfold relO
  rw [ha.2 p, hb.2 p]
  simp only [Option.bind_some, relVal, Complex.ofReal_im, Complex.ofReal_re, and_self, if_true]
  congr

/-- A conditional has the value of the branch that is chosen. -/
theorem cond_val {ρ : Env F} {P : Prop} {Q : Prop} [Decidable Q] {c a b : Expr F} {x y : ℂ} (hc : ValIf P ρ c (if Q then 1 else 0))
    (ha : ValIf (P ∧ Q) ρ a x) (hb : ValIf (P ∧ ¬ Q) ρ b y) : ValIf P ρ (condCreate c a b) (if Q then x else y) := by
  refine ⟨condCreate_good hc.1 ha.1 hb.1, fun p => condCreate_ok ρ c a b _ ?_⟩
  rw [hc.2 p]
  by_cases hq : Q
  · simp only [if_pos hq]
    rw [ha.2 ⟨p, hq⟩]
    simp [condO]
  · simp only [if_neg hq]
    rw [hb.2 ⟨p, hq⟩]
    simp [condO]

/-! ## Quaternions -/

/-- The elements have the values `v` if `P`. -/
structure QuatE.ValIf (P : Prop) (ρ : Env F) (q : QuatE F) (v : Quat ℂ) : Prop where
  w : Sym.ValIf P ρ q.w v.w
  x : Sym.ValIf P ρ q.x v.x
  y : Sym.ValIf P ρ q.y v.y
  z : Sym.ValIf P ρ q.z v.z

theorem QuatE.ValIf.of {P : Prop} {ρ : Env F} {q : QuatE F} {v : Quat ℂ} (h : q.Has ρ v) : q.ValIf P ρ v :=
  ⟨.of ⟨h.good.1, h.w⟩, .of ⟨h.good.2.1, h.x⟩, .of ⟨h.good.2.2.1, h.y⟩, .of ⟨h.good.2.2.2, h.z⟩⟩

theorem QuatE.ValIf.has {ρ : Env F} {q : QuatE F} {v : Quat ℂ} (h : q.ValIf True ρ v) : q.Has ρ v :=
  ⟨⟨h.w.1, h.x.1, h.y.1, h.z.1⟩, h.w.2 trivial, h.x.2 trivial, h.y.2 trivial, h.z.2 trivial⟩

/-- One step of a computation, with the lemma for its operation. -/
local macro "step" : tactic => `(tactic| refine Runs.bind (by first
  | exact runs_mul (by assumption) (by assumption) (by assumption) (by assumption)
  | exact runs_add (by assumption) (by assumption) (by assumption) (by assumption)
  | exact runs_sub (by assumption) (by assumption) (by assumption) (by assumption)
  | exact runs_neg (by assumption) (by assumption) (by assumption)
  | exact runs_div (by assumption) (by assumption) (by assumption) (by assumption) (by assumption)
  | exact runs_cos (by assumption) (by assumption) (by assumption)
  | exact runs_sin (by assumption) (by assumption) (by assumption)
  | exact runs_abs (by assumption) (by assumption) (by assumption)
  | exact runs_lt (by assumption) (by assumption)) fun _ _ => ?_)

section
variable {lic : Lic F} {ρ : Env F} {K : Ctors F} {P : Prop} (hK : Sound lic ρ K) (hl : lic.TrueAt ρ)
include hK hl

theorem runs_qmul {a b : QuatE F} {u v : Quat ℂ} (ha : a.ValIf P ρ u) (hb : b.ValIf P ρ v) : Runs (QuatE.mul K a b) (·.ValIf P ρ (u.mul v)) := by
  obtain ⟨_, _, _, _⟩ := ha
  obtain ⟨_, _, _, _⟩ := hb
  unfold QuatE.mul
  iterate 28 step
  exact Runs.pure ⟨by assumption, by assumption, by assumption, by assumption⟩

theorem runs_qconj {a : QuatE F} {u : Quat ℂ} (ha : a.ValIf P ρ u) : Runs (QuatE.conj K a) (·.ValIf P ρ u.conj) := by
  obtain ⟨_, _, _, _⟩ := ha
  unfold QuatE.conj
  iterate 3 step
  exact Runs.pure ⟨by assumption, by assumption, by assumption, by assumption⟩

theorem runs_qneg {a : QuatE F} {u : Quat ℂ} (ha : a.ValIf P ρ u) : Runs (QuatE.neg K a) (·.ValIf P ρ u.neg) := by
  obtain ⟨_, _, _, _⟩ := ha
  unfold QuatE.neg
  iterate 4 step
  exact Runs.pure ⟨by assumption, by assumption, by assumption, by assumption⟩

theorem runs_qsquared {a : QuatE F} {u : Quat ℂ} (ha : a.ValIf P ρ u) : Runs (QuatE.squaredNorm K a) (ValIf P ρ · u.squaredNorm) := by
  obtain ⟨_, _, _, _⟩ := ha
  unfold QuatE.squaredNorm
  iterate 6 step
  exact runs_add (by assumption) (by assumption) (by assumption) (by assumption)

theorem runs_qinverse {a : QuatE F} {u : Quat ℂ} (ha : a.ValIf P ρ u) (h0 : P → u.squaredNorm ≠ 0) :
    Runs (QuatE.inverse K a) (·.ValIf P ρ u.inverse) := by
  have hs := runs_qsquared hK hl ha
  have h1 : P → -u.squaredNorm ≠ 0 := fun p => neg_ne_zero.2 (h0 p)
  obtain ⟨_, _, _, _⟩ := ha
  unfold QuatE.inverse
  refine Runs.bind hs fun n hn => ?_
  iterate 5 step
  exact Runs.pure ⟨by assumption, by assumption, by assumption, by assumption⟩

theorem runs_qmatrix {a : QuatE F} {u : Quat ℂ} (ha : a.ValIf P ρ u) :
    Runs (QuatE.toRotationMatrix K a) fun l => l.length = 9 ∧ ∀ i j : Fin 3, ∃ e, l[3 * i.val + j.val]? = some e ∧ ValIf P ρ e (u.toRotationMatrix i j) := by
  obtain ⟨_, _, _, _⟩ := ha
  have h2 : ValIf P ρ (.int 2) 2 := by simpa using ValIf.int (P := P) (ρ := ρ) (n := 2) (by decide)
  have h1 : ValIf P ρ (.int 1) 1 := by simpa using ValIf.int (P := P) (ρ := ρ) (n := 1) (by decide)
  unfold QuatE.toRotationMatrix
  iterate 24 step
  refine Runs.pure ⟨rfl, fun i j => ?_⟩
  fin_cases i <;> fin_cases j <;> exact ⟨_, rfl, by assumption⟩

theorem runs_qrotate {a : QuatE F} {u : Quat ℂ} (ha : a.ValIf P ρ u) {e0 e1 e2 : Expr F} {v : Fin 3 → ℂ} (h0 : ValIf P ρ e0 (v 0)) (h1 : ValIf P ρ e1 (v 1))
    (h2 : ValIf P ρ e2 (v 2)) :
    Runs (QuatE.rotate K a e0 e1 e2) fun l => l.length = 3 ∧ ∀ i : Fin 3, ∃ e, l[i.val]? = some e ∧ ValIf P ρ e (u.rotate v i) := by
  have hf : ValIf P ρ (floatExpr (FloatOps.ofInt 0) : Expr F) 0 := by
    refine ⟨floatExpr_good _, fun _ => ?_⟩
    have := floatExpr_val (FloatSem.val_ofInt (F := F) 0 (by decide)) ρ
    simpa using this
  unfold QuatE.rotate
  refine Runs.bind (runs_qmul hK hl ha (v := ⟨0, v 0, v 1, v 2⟩) ⟨hf, h0, h1, h2⟩) fun p hp => ?_
  refine Runs.bind (runs_qconj hK hl ha) fun c hc => ?_
  refine Runs.bind (runs_qmul hK hl hp hc) fun r hr => ?_
  refine Runs.pure ⟨rfl, fun i => ?_⟩
  fin_cases i
  · exact ⟨_, rfl, hr.x⟩
  · exact ⟨_, rfl, hr.y⟩
  · exact ⟨_, rfl, hr.z⟩

end

end Wf.Sym
