import Verif.Sym.MatExprLemmas
import Verif.Sym.ExampleTools
import Verif.Sym.FunctionProps
import Verif.Geo.QuaternionProps

/-!
# C63: matrices of expressions

The functions on matrices of expressions have the values of the operations on matrices of numbers.
-/

namespace Wf.Sym

open Mat

variable {F : Type} [DecidableEq F] [FnSem F]

/-- A matrix of variables with two rows and two columns. -/
abbrev mv : Mat (Expr F) := ⟨2, 2, [vr "a", vr "b", vr "c", vr "d"]⟩
/-- Another one. -/
abbrev mw : Mat (Expr F) := ⟨2, 2, [vr "w", vr "x", vr "y", vr "z"]⟩

theorem hasMat2 {ρ : Env F} {a b c d : Expr F} {M : Matrix (Fin 2) (Fin 2) ℂ} (ha : Has ρ a (M 0 0)) (hb : Has ρ b (M 0 1)) (hc : Has ρ c (M 1 0))
    (hd : Has ρ d (M 1 1)) : HasMat ρ ⟨2, 2, [a, b, c, d]⟩ M := by
  refine ⟨rfl, rfl, rfl, by decide, fun i j => ?_⟩
  fin_cases i <;> fin_cases j
  · exact ⟨a, rfl, ha⟩
  · exact ⟨b, rfl, hb⟩
  · exact ⟨c, rfl, hc⟩
  · exact ⟨d, rfl, hd⟩

theorem has_mv (f : String → ℂ) : HasMat (named f) (mv : Mat (Expr F)) !![f "a", f "b"; f "c", f "d"] :=
  hasMat2 (has_vr f "a") (has_vr f "b") (has_vr f "c") (has_vr f "d")
theorem has_mw (f : String → ℂ) : HasMat (named f) (mw : Mat (Expr F)) !![f "w", f "x"; f "y", f "z"] :=
  hasMat2 (has_vr f "w") (has_vr f "x") (has_vr f "y") (has_vr f "z")

section
variable {ρ : Env F} {nK m : Nat}

/-- **C63**. Sums and differences. -/
theorem C63_sum_difference (a b s d : Mat (Expr F)) {r c : Nat} (A B : Matrix (Fin r) (Fin c) ℂ) (ha : HasMat ρ a A) (hb : HasMat ρ b B)
    (h : LawfulRunOn (· = ρ) nK (fun _ K => matAddE K a b) s) (h' : LawfulRunOn (· = ρ) nK (fun _ K => matSubE K a b) d) :
    HasMat ρ s (A + B) ∧ HasMat ρ d (A - B) := by
  obtain ⟨lic, hl, hr⟩ := h.lawful
  obtain ⟨lic', hl', hr'⟩ := h'.lawful
  exact ⟨runs_matAdd (ctors_sound lic ρ nK) (hl ρ rfl) ha hb s hr, runs_matSub (ctors_sound lic' ρ nK) (hl' ρ rfl) ha hb d hr'⟩

set_option maxRecDepth 100000 in
example (f : String → ℂ) : ∃ s d : Mat (Expr ℝ), HasMat (named f) s (!![f "a", f "b"; f "c", f "d"] + !![f "w", f "x"; f "y", f "z"]) ∧
    HasMat (named f) d (!![f "a", f "b"; f "c", f "d"] - !![f "w", f "x"; f "y", f "z"]) := by
  obtain ⟨s, hs⟩ := Same.runs (F := ℝ) (n := 8) (run := fun _ K => matAddE K mv mw) (by decide +kernel) (· = named f)
  obtain ⟨d, hd⟩ := Same.runs (F := ℝ) (n := 8) (run := fun _ K => matSubE K mv mw) (by decide +kernel) (· = named f)
  exact ⟨s, d, C63_sum_difference _ _ s d _ _ (has_mv f) (has_mw f) hs hd⟩

/-- **C63**. Products. -/
theorem C63_product (a b p : Mat (Expr F)) {r n c : Nat} (A : Matrix (Fin r) (Fin n) ℂ) (B : Matrix (Fin n) (Fin c) ℂ) (ha : HasMat ρ a A) (hb : HasMat ρ b B)
    (hs : r * c < 2 ^ 31) (h : LawfulRunOn (· = ρ) nK (fun _ K => matMulE K a b) p) : HasMat ρ p (A * B) := by
  obtain ⟨lic, hl, hr⟩ := h.lawful
  exact runs_matMul (ctors_sound lic ρ nK) (hl ρ rfl) ha hb hs p hr

set_option maxRecDepth 100000 in
example (f : String → ℂ) : ∃ p : Mat (Expr ℝ), HasMat (named f) p (!![f "a", f "b"; f "c", f "d"] * !![f "w", f "x"; f "y", f "z"]) :=
  (Same.runs (n := 8) (run := fun _ K => matMulE K mv mw) (by decide +kernel) _).imp fun p h => C63_product _ _ p _ _ (has_mv f) (has_mw f) (by decide) h

/-- **C63**. Multiples and negation. -/
theorem C63_scale_negate (a s n : Mat (Expr F)) (e : Expr F) {r c : Nat} (A : Matrix (Fin r) (Fin c) ℂ) (z : ℂ) (ha : HasMat ρ a A) (he : Has ρ e z)
    (h : LawfulRunOn (· = ρ) nK (fun _ K => matScaleE K a e) s) (h' : LawfulRunOn (· = ρ) nK (fun _ K => matNegE K a) n) :
    HasMat ρ s (z • A) ∧ HasMat ρ n (-A) := by
  obtain ⟨lic, hl, hr⟩ := h.lawful
  obtain ⟨lic', hl', hr'⟩ := h'.lawful
  refine ⟨runs_matScale (ctors_sound lic ρ nK) (hl ρ rfl) ha he s hr, ?_⟩
  have := runs_matScale (ctors_sound lic' ρ nK) (hl' ρ rfl) ha (hv_negOne (ρ := ρ)) n hr'
  rwa [neg_one_smul] at this

set_option maxRecDepth 100000 in
example (f : String → ℂ) : ∃ s n : Mat (Expr ℝ), HasMat (named f) s (f "x" • !![f "a", f "b"; f "c", f "d"]) ∧ HasMat (named f) n (-!![f "a", f "b"; f "c", f "d"]) := by
  obtain ⟨s, hs⟩ := Same.runs (F := ℝ) (n := 8) (run := fun _ K => matScaleE K mv (vr "x")) (by decide +kernel) (· = named f)
  obtain ⟨n, hn⟩ := Same.runs (F := ℝ) (n := 8) (run := fun _ K => matNegE K mv) (by decide +kernel) (· = named f)
  exact ⟨s, n, C63_scale_negate _ s n _ _ _ (has_mv f) (has_vr f "x") hs hn⟩

/-- **C63**. The squared norm, and the norm of a real matrix. -/
theorem C63_norms (a : Mat (Expr F)) (s n : Expr F) {r c : Nat} (A : Matrix (Fin r) (Fin c) ℂ) (ha : HasMat ρ a A)
    (h : LawfulRunOn (· = ρ) nK (fun _ K => matSquaredNormE K a) s) (h' : LawfulRunOn (· = ρ) nK (fun _ K => matNormE K a) n) :
    Has ρ s (∑ i, ∑ j, A i j ^ 2) ∧ ∀ R : Matrix (Fin r) (Fin c) ℝ, A = ofReal R → Has ρ n (√(∑ i, ∑ j, R i j ^ 2) : ℝ) := by
  obtain ⟨lic, hl, hr⟩ := h.lawful
  obtain ⟨lic', hl', hr'⟩ := h'.lawful
  refine ⟨runs_matSquaredNorm (ctors_sound lic ρ nK) (hl ρ rfl) ha s hr, ?_⟩
  rintro R rfl
  have key : Runs (matNormE (ctors lic' nK) a) (fun n => ValIf True ρ n ((√(∑ i, ∑ j, R i j ^ 2) : ℝ) : ℂ)) := by
    refine Runs.bind (runs_matSquaredNorm (ctors_sound lic' ρ nK) (hl' ρ rfl) ha) fun q hq => ?_
    refine real_sqrt (ctors_sound lic' ρ nK) (hl' ρ rfl) (P := True) (ValIf.cast (.of hq) fun _ => ?_) fun _ => ?_
    · push_cast; rfl
    · exact Finset.sum_nonneg fun i _ => Finset.sum_nonneg fun j _ => sq_nonneg _
  exact ValIf.has (key n hr')

set_option maxRecDepth 100000 in
example (f : String → ℂ) : ∃ s : Expr ℝ, Has (named f) s (∑ i, ∑ j, !![f "a", f "b"; f "c", f "d"] i j ^ 2) := by
  obtain ⟨s, hs⟩ := Same.runs (F := ℝ) (n := 8) (run := fun _ K => matSquaredNormE K mv) (by decide +kernel) (· = named f)
  obtain ⟨n, hn⟩ := Same.runs (F := ℝ) (n := 8) (run := fun _ K => matNormE K mv) (by decide +kernel) (· = named f)
  exact ⟨s, (C63_norms _ s n _ (has_mv f) hs hn).1⟩

/-- **C63**. A conditional matrix has the values of the matrix that is chosen; the other one need not have values. -/
theorem C63_where (cond : Expr F) (a b w : Mat (Expr F)) {r c : Nat} (A : Matrix (Fin r) (Fin c) ℂ) (h : matWhereE cond a b = .ok w) :
    (Has ρ cond 1 → HasMat ρ a A → b.data.length = a.data.length → (∀ e ∈ b.data, Good e) → HasMat ρ w A) ∧
    (Has ρ cond 0 → HasMat ρ b A → a.data.length = b.data.length → (∀ e ∈ a.data, Good e) → HasMat ρ w A) := by
  unfold matWhereE at h
  by_cases hd : a.rows ≠ b.rows ∨ a.cols ≠ b.cols
  · rw [if_pos hd] at h; cases h
  rw [if_neg hd] at h
  have hw : w = ⟨a.rows, a.cols, List.zipWith (condCreate cond) a.data b.data⟩ := by
    unfold newMatrix at h
    split at h
    · cases h
    · split at h
      · cases h
      · cases h; rfl
  have er : a.rows = b.rows := by_contra fun h => hd (.inl h)
  have ec : a.cols = b.cols := by_contra fun h => hd (.inr h)
  constructor
  · intro hc ha hlen hg
    subst hw
    refine ⟨ha.rows, ha.cols, by simp only [List.length_zipWith, hlen, ha.length, min_self], ha.small, fun i j => ?_⟩
    obtain ⟨e, he, hv⟩ := ha.entry i j
    obtain ⟨hk, _⟩ := List.getElem?_eq_some_iff.1 he
    have hb : b.data[i.val * c + j.val]? = some b.data[i.val * c + j.val] := List.getElem?_eq_getElem (hlen ▸ hk)
    refine ⟨_, by rw [List.getElem?_zipWith, he, hb], condCreate_good hc.1 hv.1 (hg _ (List.mem_of_getElem? hb)), condCreate_ok ρ _ _ _ _ ?_⟩
    rw [hc.2, hv.2]
    simp [condO]
  · intro hc hb hlen hg
    subst hw
    refine ⟨by rw [← hb.rows]; exact er, by rw [← hb.cols]; exact ec, by simp only [List.length_zipWith, hlen, hb.length, min_self], hb.small, fun i j => ?_⟩
    obtain ⟨e, he, hv⟩ := hb.entry i j
    obtain ⟨hk, _⟩ := List.getElem?_eq_some_iff.1 he
    have ha : a.data[i.val * c + j.val]? = some a.data[i.val * c + j.val] := List.getElem?_eq_getElem (hlen ▸ hk)
    refine ⟨_, by rw [List.getElem?_zipWith, he, ha], condCreate_good hc.1 (hg _ (List.mem_of_getElem? ha)) hv.1, condCreate_ok ρ _ _ _ _ ?_⟩
    rw [hc.2, hv.2]
    simp [condO]

example (f : String → ℂ) (h1 : f "p" = 1) : ∃ w : Mat (Expr ℝ), HasMat (named f) w !![f "a", f "b"; f "c", f "d"] :=
  ⟨_, (C63_where (vr "p") mv mw _ _ rfl).1 (by rw [← h1]; exact has_vr f "p") (has_mv f) rfl (by
    intro e he
    obtain ⟨z, hz⟩ := (has_mw f).mem he
    exact hz.1)⟩

/-- **C63**. Determinants of matrices with up to three rows. -/
theorem C63_determinant_small (a : Mat (Expr F)) (d : Expr F) {n : Nat} (A : Matrix (Fin n) (Fin n) ℂ) (ha : HasMat ρ a A) (h1 : 1 ≤ n) (h3 : n ≤ 3)
    (h : LawfulRunOn (· = ρ) nK (fun _ K => determinantE K a) d) : Has ρ d A.det := by
  obtain ⟨lic, hl, hr⟩ := h.lawful
  exact runs_det_small (ctors_sound lic ρ nK) (hl ρ rfl) ha h1 h3 d hr

set_option maxRecDepth 100000 in
example (f : String → ℂ) : ∃ d : Expr ℝ, Has (named f) d !![f "a", f "b"; f "c", f "d"].det :=
  (Same.runs (n := 8) (run := fun _ K => determinantE K mv) (by decide +kernel) _).imp fun d h =>
    C63_determinant_small _ d _ (has_mv f) (by decide) (by decide) h

/-- The factors and the determinant of a matrix. -/
def luAndDet (K : Ctors F) (a : Mat (Expr F)) : Res ((Mat (Expr F) × Mat (Expr F) × Mat (Expr F) × Mat (Expr F)) × Expr F) := do
  let f ← luE K a
  return (f, ← determinantE K a)

/-- **C63**. The factors of a matrix where the pivots are not zero: permutations, unit lower triangular, upper triangular, and their product is the matrix. -/
theorem C63_lu (a P L U Q : Mat (Expr F)) {r c : Nat} (A : Matrix (Fin r) (Fin c) ℂ) (ha : HasMat ρ a A) (h1 : 1 ≤ r) (h2 : r ≤ c) (hcc : c * c < 2 ^ 31)
    (h : LawfulRunOn (· = ρ) nK (fun _ K => luE K a) (P, L, U, Q)) (hp : PivotsHaveValues ρ U r c) :
    ∃ (MP ML : Matrix (Fin r) (Fin r) ℂ) (MU : Matrix (Fin r) (Fin c) ℂ) (MQ : Matrix (Fin c) (Fin c) ℂ),
      HasMat ρ P MP ∧ HasMat ρ L ML ∧ HasMat ρ U MU ∧ HasMat ρ Q MQ ∧ IsPermutationMatrix MP ∧ IsPermutationMatrix MQ ∧
      (∀ i, ML i i = 1) ∧ (∀ i j, i < j → ML i j = 0) ∧ (∀ i j, j.val < i.val → MU i j = 0) ∧ MP * ML * MU * MQ = A := by
  obtain ⟨lic, hl, hr⟩ := h.lawful
  exact runs_luProduct (ctors_sound lic ρ nK) (hl ρ rfl) ha h1 h2 hcc hr hp

/-- **C63**. Determinants of larger matrices where the pivots are not zero (`C63_zero_pivot` shows that the condition is needed). -/
theorem C63_determinant_large (a : Mat (Expr F)) (fs : Mat (Expr F) × Mat (Expr F) × Mat (Expr F) × Mat (Expr F)) (d : Expr F) {n : Nat}
    (A : Matrix (Fin n) (Fin n) ℂ) (ha : HasMat ρ a A) (h4 : 4 ≤ n) (h : LawfulRunOn (· = ρ) nK (fun _ K => luAndDet K a) (fs, d))
    (hp : PivotsHaveValues ρ fs.2.2.1 n n) : Has ρ d A.det := by
  obtain ⟨lic, hl, hr⟩ := h.lawful
  unfold luAndDet at hr
  cases hf : luE (ctors lic nK) a with
  | error e => rw [hf] at hr; cases hr
  | ok fs' =>
    cases hd : determinantE (ctors lic nK) a with
    | error e => rw [hf, hd] at hr; cases hr
    | ok d' =>
      rw [hf, hd] at hr
      cases hr
      exact runs_det_large (ctors_sound lic ρ nK) (hl ρ rfl) ha h4 hf hp d hd

end

/-- A matrix with four rows whose first pivot is a variable. -/
def m4 : Mat (Expr ℝ) := ⟨4, 4, [vr "x", .int 1, .int 0, .int 0, .int 1, .int 1, .int 0, .int 0, .int 0, .int 0, .int 1, .int 0, .int 0, .int 0, .int 0, .int 1]⟩
/-- The identity. -/
def m4I : Mat (Expr ℝ) := ⟨4, 4, [.int 1, .int 0, .int 0, .int 0, .int 0, .int 1, .int 0, .int 0, .int 0, .int 0, .int 1, .int 0, .int 0, .int 0, .int 0, .int 1]⟩
/-- The second pivot. -/
def m4p : Expr ℝ := .add [.mul [.pow (vr "x") (.int (-1)), .int (-1)], .int 1]
/-- Its factors. -/
def m4fs : Mat (Expr ℝ) × Mat (Expr ℝ) × Mat (Expr ℝ) × Mat (Expr ℝ) :=
  (m4I, ⟨4, 4, [.int 1, .int 0, .int 0, .int 0, .pow (vr "x") (.int (-1)), .int 1, .int 0, .int 0, .int 0, .int 0, .int 1, .int 0, .int 0, .int 0, .int 0, .int 1]⟩,
    ⟨4, 4, [vr "x", .int 1, .int 0, .int 0, .int 0, m4p, .int 0, .int 0, .int 0, .int 0, .int 1, .int 0, .int 0, .int 0, .int 0, .int 1]⟩, m4I)
/-- Its determinant. -/
def m4d : Expr ℝ := .mul [m4p, vr "x"]
/-- Its values. -/
def M4 (x : ℂ) : Matrix (Fin 4) (Fin 4) ℂ := !![x, 1, 0, 0; 1, 1, 0, 0; 0, 0, 1, 0; 0, 0, 0, 1]

theorem has_m4 (f : String → ℂ) : HasMat (named f) m4 (M4 (f "x")) := by
  have h0 : Has (F := ℝ) (named f) (.int 0) 0 := hv_zero
  have h1 : Has (F := ℝ) (named f) (.int 1) 1 := hv_one
  refine ⟨rfl, rfl, rfl, by decide, fun i j => ?_⟩
  fin_cases i <;> fin_cases j <;>
    first
      | exact ⟨_, rfl, has_vr f "x"⟩
      | exact ⟨_, rfl, h0⟩
      | exact ⟨_, rfl, h1⟩

set_option maxRecDepth 100000 in
theorem runs_m4 (S : Env ℝ → Prop) : LawfulRunOn S 8 (fun _ K => luAndDet K m4) (m4fs, m4d) := by
  have join : ∀ K : Ctors ℝ, luE K m4 = .ok m4fs → determinantE K m4 = .ok m4d → luAndDet K m4 = .ok (m4fs, m4d) := fun K h1 h2 => by
    unfold luAndDet
    rw [h1, h2]
    rfl
  exact ⟨join _ (by decide +kernel) (by decide +kernel), noLic, fun _ _ => noLic_true _, join _ (by decide +kernel) (by decide +kernel)⟩

theorem det_M4 (x : ℂ) : (M4 x).det = x - 1 := by
  simp [M4, Matrix.det_succ_row_zero, Fin.sum_univ_succ, Fin.succAbove]
  ring

theorem eval_m4p (f : String → ℂ) (h : f "x" ≠ 0) : eval (named f) m4p = some (1 - (f "x")⁻¹) := by
  rw [m4p, eval_add, List.map_cons, List.map_singleton, eval_mul, List.map_cons, List.map_singleton, eval_pow, (has_vr f "x").2, eval_int, eval_int,
    powO_some, powVal, if_neg h]
  have : f "x" ^ (((-1 : Int) : ℂ)) = (f "x")⁻¹ := by rw [Complex.cpow_intCast, zpow_neg_one]
  rw [this]
  simp [sumO, prodO]
  ring

theorem pivots_m4 (f : String → ℂ) (h : f "x" ≠ 0) (h1 : f "x" ≠ 1) : PivotsHaveValues (named f) m4fs.2.2.1 4 4 := by
  intro k e hk he hne
  have hk' : k = 0 ∨ k = 1 ∨ k = 2 := by omega
  rcases hk' with rfl | rfl | rfl
  · cases Option.some.inj he
    rw [(has_vr f "x").2]
    exact fun hh => h (Option.some.inj hh)
  · cases Option.some.inj he
    rw [eval_m4p f h]
    intro hh
    have := Option.some.inj hh
    rw [sub_eq_zero] at this
    exact h1 (inv_eq_one.1 this.symm)
  · cases Option.some.inj he
    rw [eval_int]
    simp

example (f : String → ℂ) (h : f "x" ≠ 0) (h1 : f "x" ≠ 1) : ∃ (MP ML : Matrix (Fin 4) (Fin 4) ℂ) (MU : Matrix (Fin 4) (Fin 4) ℂ) (MQ : Matrix (Fin 4) (Fin 4) ℂ),
    MP * ML * MU * MQ = M4 (f "x") := by
  have hr : LawfulRunOn (· = named f) 8 (fun _ K => luE K m4) m4fs := ⟨by decide +kernel, noLic, fun _ _ => noLic_true _, by decide +kernel⟩
  obtain ⟨MP, ML, MU, MQ, _, _, _, _, _, _, _, _, _, h⟩ := C63_lu m4 _ _ _ _ _ (has_m4 f) (by decide) (le_refl _) (by decide) hr (pivots_m4 f h h1)
  exact ⟨MP, ML, MU, MQ, h⟩

example (f : String → ℂ) (h : f "x" ≠ 0) (h1 : f "x" ≠ 1) : Has (named f) m4d (f "x" - 1) :=
  det_M4 (f "x") ▸ C63_determinant_large m4 m4fs m4d _ (has_m4 f) (le_refl _) (runs_m4 _) (pivots_m4 f h h1)

/-- **C63**. Where a pivot has the value zero the determinant of a matrix with four rows can have no value although the matrix has a determinant. -/
theorem C63_zero_pivot : ∃ (a : Mat (Expr ℝ)) (fs : _) (d : Expr ℝ) (ρ : Env ℝ) (A : Matrix (Fin 4) (Fin 4) ℂ),
    HasMat ρ a A ∧ LawfulRunOn (· = ρ) 8 (fun _ K => luAndDet K a) (fs, d) ∧ A.det = -1 ∧ eval ρ d = none := by
  refine ⟨m4, m4fs, m4d, named fun _ => 0, M4 0, has_m4 fun _ => 0, runs_m4 _, by rw [det_M4]; norm_num, ?_⟩
  rw [m4d, eval_mul, List.map_cons, List.map_singleton, m4p, eval_add, List.map_cons, List.map_singleton, eval_mul, List.map_cons, List.map_singleton, eval_pow,
    (has_vr _ "x").2, eval_int, eval_int]
  have : ¬ (1 : ℝ) < 0 := by norm_num
  simp [sumO, prodO, powO, powVal, this]

section
variable {ρ : Env F} {nK m : Nat} {a b c : Expr F} {v : Fin 3 → ℝ}

/-- **C63**. The left Jacobian of SO(3): the formula of C33, with the threshold and without it. -/
theorem C63_left_jacobian (ha : Has ρ a (v 0)) (hb : Has ρ b (v 1)) (hc : Has ρ c (v 2)) (J : Mat (Expr F)) :
    (∀ (e : Expr F) (eps : ℝ), Has ρ e eps → 0 ≤ eps → LawfulRunOn (· = ρ) nK (fun _ K => leftJacobianE K m a b c (some e)) J →
      HasMat ρ J (ofReal (Geo.leftJacobian v (some eps)))) ∧
    (v ≠ 0 → LawfulRunOn (· = ρ) nK (fun _ K => leftJacobianE K m a b c none) J → HasMat ρ J (ofReal (Geo.leftJacobian v none))) := by
  constructor
  · intro e eps he h0 h
    obtain ⟨lic, hl, hr⟩ := h.lawful
    exact runs_leftJacobian_some (ctors_sound lic ρ nK) (hl ρ rfl) (.of ha) (.of hb) (.of hc) (.of he) h0 J hr
  · intro h0 h
    obtain ⟨lic, hl, hr⟩ := h.lawful
    exact runs_leftJacobian_none (ctors_sound lic ρ nK) (hl ρ rfl) (.of ha) (.of hb) (.of hc) (Geo.vecAngle_ne_zero h0) J hr

/-- **C63**. Without a threshold the elements are the integrals that define the left Jacobian. -/
theorem C63_left_jacobian_integral (ha : Has ρ a (v 0)) (hb : Has ρ b (v 1)) (hc : Has ρ c (v 2)) (J : Mat (Expr F)) (h0 : v ≠ 0)
    (h : LawfulRunOn (· = ρ) nK (fun _ K => leftJacobianE K m a b c none) J) :
    HasMat ρ J (ofReal (.of fun i j => ∫ α in (0 : ℝ)..1, (NormedSpace.exp (α • Geo.skew v) : Matrix (Fin 3) (Fin 3) ℝ) i j)) := by
  have := (C63_left_jacobian ha hb hc J).2 h0 h
  convert this using 2
  ext i j
  exact (Geo.C33_left_jacobian_integral v h0 i j).symm

/-- **C63**. The inverse of the left Jacobian: the formula of C33, and without a threshold the inverse matrix. -/
theorem C63_inverse_left_jacobian (ha : Has ρ a (v 0)) (hb : Has ρ b (v 1)) (hc : Has ρ c (v 2)) (J : Mat (Expr F)) :
    (∀ (e : Expr F) (eps : ℝ), Has ρ e eps → 0 ≤ eps → (eps < Geo.vecAngle v → Real.sin (Geo.vecAngle v) ≠ 0) →
      LawfulRunOn (· = ρ) nK (fun _ K => inverseLeftJacobianE K m a b c (some e)) J → HasMat ρ J (ofReal (Geo.inverseLeftJacobian v (some eps)))) ∧
    (Real.sin (Geo.vecAngle v) ≠ 0 → LawfulRunOn (· = ρ) nK (fun _ K => inverseLeftJacobianE K m a b c none) J →
      HasMat ρ J (ofReal (Geo.leftJacobian v none)⁻¹)) := by
  constructor
  · intro e eps he h0 h1 h
    obtain ⟨lic, hl, hr⟩ := h.lawful
    exact runs_inverseJacobian_some (ctors_sound lic ρ nK) (hl ρ rfl) (.of ha) (.of hb) (.of hc) (.of he) h0 h1 J hr
  · intro h0 h
    obtain ⟨lic, hl, hr⟩ := h.lawful
    rw [Matrix.inv_eq_right_inv (Geo.C33_inverse v h0).1]
    exact runs_inverseJacobian_none (ctors_sound lic ρ nK) (hl ρ rfl) (.of ha) (.of hb) (.of hc) h0 J hr

end

set_option maxRecDepth 100000 in
example (f : String → ℂ) (v : Fin 3 → ℝ) (hx : f "x" = v 0) (hy : f "y" = v 1) (hz : f "z" = v 2) (h0 : v ≠ 0) : ∃ J : Mat (Expr ℝ),
    HasMat (named f) J (ofReal (.of fun i j => ∫ α in (0 : ℝ)..1, (NormedSpace.exp (α • Geo.skew v) : Matrix (Fin 3) (Fin 3) ℝ) i j)) :=
  (Same.runs (n := 8) (run := fun _ K => leftJacobianE K 8 (vr "x") (vr "y") (vr "z") none) (by decide +kernel) _).imp fun J h =>
    C63_left_jacobian_integral (hx ▸ has_vr f "x") (hy ▸ has_vr f "y") (hz ▸ has_vr f "z") J h0 h

set_option maxRecDepth 100000 in
example (f : String → ℂ) (v : Fin 3 → ℝ) (eps : ℝ) (hx : f "x" = v 0) (hy : f "y" = v 1) (hz : f "z" = v 2) (he : f "e" = eps) (h0 : 0 ≤ eps) :
    ∃ J : Mat (Expr ℝ), HasMat (named f) J (ofReal (Geo.leftJacobian v (some eps))) :=
  (Same.runs (n := 8) (run := fun _ K => leftJacobianE K 8 (vr "x") (vr "y") (vr "z") (some (vr "e"))) (by decide +kernel) _).imp fun J h =>
    (C63_left_jacobian (hx ▸ has_vr f "x") (hy ▸ has_vr f "y") (hz ▸ has_vr f "z") J).1 _ eps (he ▸ has_vr f "e") h0 h

set_option maxRecDepth 100000 in
example (f : String → ℂ) (v : Fin 3 → ℝ) (hx : f "x" = v 0) (hy : f "y" = v 1) (hz : f "z" = v 2) (h0 : Real.sin (Geo.vecAngle v) ≠ 0) :
    ∃ J : Mat (Expr ℝ), HasMat (named f) J (ofReal (Geo.leftJacobian v none)⁻¹) :=
  (Same.runs (n := 8) (run := fun _ K => inverseLeftJacobianE K 8 (vr "x") (vr "y") (vr "z") none) (by decide +kernel) _).imp fun J h =>
    (C63_inverse_left_jacobian (hx ▸ has_vr f "x") (hy ▸ has_vr f "y") (hz ▸ has_vr f "z") J).2 h0 h

/-- **C63**. Shapes that do not fit are rejected. -/
theorem C63_rejects (K : Ctors F) (cond : Expr F) (a b : Mat (Expr F)) :
    (a.rows ≠ b.rows ∨ a.cols ≠ b.cols → matAddE K a b = .error .dimension ∧ matSubE K a b = .error .dimension ∧ matWhereE cond a b = .error .dimension) ∧
    (a.cols ≠ b.rows → matMulE K a b = .error .dimension) ∧ (a.rows ≠ a.cols → determinantE K a = .error .dimension) := by
  refine ⟨fun h => ⟨?_, ?_, if_pos h⟩, fun h => ?_, fun h => ?_⟩
  · have : (liftM a).add (exprOps K) (liftM b) = .error .dimension := if_pos h
    unfold matAddE
    rw [this]
    rfl
  · have : (liftM a).sub (exprOps K) (liftM b) = .error .dimension := if_pos h
    unfold matSubE
    rw [this]
    rfl
  · have : (liftM a).mul (exprOps K) (liftM b) = .error .dimension := if_pos h
    unfold matMulE
    rw [this]
    rfl
  · have : determinant (exprOps K) (fun s => .ok (.int s)) (liftM a) = .error .dimension := if_pos h
    unfold determinantE
    rw [this]
    rfl

example : matMulE (ctors codeLic 8) (mv : Mat (Expr ℝ)) ⟨1, 2, [vr "a", vr "b"]⟩ = .error .dimension := (C63_rejects _ (vr "p") mv _).2.1 (by decide)

end Wf.Sym
