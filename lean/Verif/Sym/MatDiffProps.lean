import Verif.Sym.MatDiffModel
import Verif.Sym.ChainProps
import Verif.Sym.MatExprSpec

/-! # Property C67: derivatives of matrices and Jacobians have the derivatives as their elements -/

namespace Wf.Sym
open Mat (Mat)
open Complex Filter Topology

variable {F : Type} [DecidableEq F] [FnSem F]

/-- **C67** (elements). The derivative of a matrix has the same numbers of rows and columns, and its elements are the derivatives of the elements. -/
theorem C67_elements (D : DiffCfg F) (m m' : Mat (Expr F)) (reps : Int) (hr : 0 ≤ reps) (h : matDiff D m reps = .ok m') :
    m'.rows = m.rows ∧ m'.cols = m.cols ∧ m'.data.length = m.data.length ∧
      ∀ (i : Nat) (e : Expr F), m.data[i]? = some e → ∃ d, m'.data[i]? = some d ∧ diff D e reps = .ok d := by
  unfold matDiff at h
  split_ifs at h with harg
  obtain ⟨l, hl, h⟩ := andThen_ok h
  cases h
  have hf : List.Forall₂ (fun e d => diffTimes D reps.toNat e = .ok d) m.data l := mapRes_ok hl
  refine ⟨rfl, rfl, hf.length_eq.symm, fun i e he => ?_⟩
  obtain ⟨hi, rfl⟩ := List.getElem?_eq_some_iff.1 he
  have hi' : i < l.length := hf.length_eq ▸ hi
  refine ⟨l[i], List.getElem?_eq_getElem hi', ?_⟩
  unfold diff
  rw [if_neg (by omega), if_pos harg]
  exact hf.get hi hi'

/-- **C67**. Let the elements of a matrix be smooth at `t₀` as functions of the variable `v`. Then the matrix has a value near `t₀`, every element of
which is differentiable, and the value of the derivative of the matrix is the matrix of the derivatives. -/
theorem C67_value (S : Env F → Prop) (ρ : Env F) (hC : Calculus ρ) (t₀ : ℝ) (n m k j : Nat) (v : Head F) (beh : NonDiff) (fresh : Expr F → Nat → Nat)
    (hfresh : IsFresh fresh) (hv : v.isVar = true) (r c : Nat) (M M' : Mat (Expr F)) (hrows : M.rows = r) (hcols : M.cols = c) (hlen : M.data.length = r * c)
    (hsmall : r * c < 2 ^ 31) (hg : ∀ e ∈ M.data, Good e) (h₀ : S (along ρ (.node v []) t₀))
    (hs : ∀ e ∈ M.data, Smooth (Declared S j beh ρ v t₀) beh S (along ρ (.node v [])) t₀ e)
    (h : LawfulRunOn S n (fun _ K => matDiff (chainCfg K m fresh k (.node v []) beh) M 1) M') :
    ∃ (G : ℝ → Matrix (Fin r) (Fin c) ℂ) (G' : Matrix (Fin r) (Fin c) ℂ), (∀ᶠ t in 𝓝 t₀, HasMat (along ρ (.node v []) t) M (G t)) ∧
      (∀ i j, HasDerivAt (fun t => G t i j) (G' i j) t₀) ∧ HasMat (along ρ (.node v []) t₀) M' G' := by
  obtain ⟨lic, hl, hr⟩ := h.lawful
  obtain ⟨h1, h2, h3, h4⟩ := C67_elements _ _ _ 1 (by decide) hr
  have hlt : ∀ (i : Fin r) (j : Fin c), i.val * c + j.val < M.data.length := fun i j => by
    rw [hlen]
    calc i.val * c + j.val < i.val * c + c := by omega
      _ = (i.val + 1) * c := by ring
      _ ≤ r * c := Nat.mul_le_mul_right c i.2
  choose g g' hder hd using fun (i : Fin r) (j : Fin c) =>
    chain_ok (n := n) (m := m) hfresh hl _ (k := k) hC hv h₀ (hs _ (List.getElem_mem (hlt i j))) (hg _ (List.getElem_mem (hlt i j)))
  refine ⟨fun t i j => g i j t, fun i j => g' i j, ?_, fun i j => (hder i j).2, ⟨h1.trans hrows, h2.trans hcols, h3.trans hlen, hsmall, fun i j => ?_⟩⟩
  · have hall : ∀ᶠ t in 𝓝 t₀, ∀ i j, eval (along ρ (.node v []) t) (M.data[i.val * c + j.val]'(hlt i j)) = some (g i j t) := by
      rw [eventually_all]; intro i
      rw [eventually_all]; intro j
      exact (hder i j).1
    filter_upwards [hall] with t ht
    exact ⟨hrows, hcols, hlen, hsmall, fun i j => ⟨_, List.getElem?_eq_getElem (hlt i j), hg _ (List.getElem_mem _), ht i j⟩⟩
  · obtain ⟨d, hd1, hd2⟩ := h4 _ _ (List.getElem?_eq_getElem (hlt i j))
    exact ⟨d, hd1, hd i j d (diff_one hd2)⟩

/-- Giving a variable the value it has. -/
theorem along_self {ρ : Env F} {v : Head F} {t : ℝ} (h : ρ.leaf v = some (t : ℂ)) : along ρ (.node v []) t = ρ := by
  unfold along Env.setVar
  obtain ⟨l, s, o⟩ := ρ
  congr 1
  funext x
  dsimp only
  split_ifs with h3
  · rw [identical_iff] at h3; cases h3; exact h.symm
  · rfl

/-- **C67** (Jacobians). Let the variables `vs` have the real values `ts`, and let the functions `fs` be smooth there as functions of each of the
variables. Then the Jacobian has a row for every function and a column for every variable, and its values are the partial derivatives. -/
theorem C67_jacobian (S : Env F → Prop) (ρ : Env F) (hC : Calculus ρ) (n m k l : Nat) (beh : NonDiff) (fresh : Expr F → Nat → Nat) (hfresh : IsFresh fresh)
    (M V J : Mat (Expr F)) (vs : List (Head F)) (ts : List ℝ) (hV : V.data = vs.map fun v => .node v []) (hv : ∀ v ∈ vs, v.isVar = true)
    (hts : List.Forall₂ (fun v t => ρ.leaf v = some ((t : ℝ) : ℂ)) vs ts) (hsmall : M.data.length * vs.length < 2 ^ 31) (hg : ∀ e ∈ M.data, Good e) (h₀ : S ρ)
    (hs : ∀ e ∈ M.data, ∀ p ∈ vs.zip ts, Smooth (Declared S l beh ρ p.1 p.2) beh S (along ρ (.node p.1 [])) p.2 e)
    (h : LawfulRunOn S n (fun _ K => matJacobian (fun v => chainCfg K m fresh k v beh) M V) J) :
    ∃ D : Matrix (Fin M.data.length) (Fin vs.length) ℂ, HasMat ρ J D ∧
      ∀ (i : Fin M.data.length) (j : Fin vs.length) (f : Expr F) (v : Head F) (t₀ : ℝ), M.data[i.val]? = some f → vs[j.val]? = some v → ts[j.val]? = some t₀ →
        ∃ g : ℝ → ℂ, (∀ᶠ t in 𝓝 t₀, eval (along ρ (.node v []) t) f = some (g t)) ∧ HasDerivAt g (D i j) t₀ := by
  obtain ⟨lic, hl, hr⟩ := h.lawful
  unfold matJacobian at hr
  split_ifs at hr with hd1
  unfold matJacobianOver at hr
  split_ifs at hr with hd2
  obtain ⟨⟨rows, cols, data⟩, hj, hr⟩ := andThen_ok hr
  cases hr
  obtain ⟨-, hjac⟩ := C15_jacobian (fun v => chainCfg (ctors lic n) m fresh k v beh) (fun _ => rfl) M.data V.data
  obtain ⟨hrows, hcols, hlen, hel⟩ := hjac _ _ _ hj
  have hVl : V.data.length = vs.length := by rw [hV, List.length_map]
  have htl := hts.length_eq
  have key : ∀ (i : Fin M.data.length) (j : Fin vs.length), ∃ (z : ℂ), (∃ g : ℝ → ℂ,
      (∀ᶠ t in 𝓝 (ts[j.val]'(htl ▸ j.2)), eval (along ρ (.node vs[j.val] []) t) M.data[i.val] = some (g t)) ∧ HasDerivAt g z (ts[j.val]'(htl ▸ j.2))) ∧
      ∃ d, data[i.val * vs.length + j.val]? = some d ∧ Has ρ d z := by
    intro i j
    have hjt : j.val < ts.length := htl ▸ j.2
    have hleaf : ρ.leaf vs[j.val] = some ((ts[j.val] : ℝ) : ℂ) := hts.get j.2 hjt
    have hmem : (vs[j.val], ts[j.val]) ∈ vs.zip ts := by
      have : (vs.zip ts)[j.val]'(by rw [List.length_zip]; omega) = (vs[j.val], ts[j.val]) := List.getElem_zip
      rw [← this]; exact List.getElem_mem _
    have hself := along_self hleaf
    obtain ⟨g, g', hder, hd⟩ := chain_ok (n := n) (m := m) hfresh hl l (k := k) hC (hv _ (List.getElem_mem j.2)) (by rw [hself]; exact h₀)
      (hs _ (List.getElem_mem i.2) _ hmem) (hg _ (List.getElem_mem i.2))
    obtain ⟨d, hd1, hd2⟩ := hel i.val j.val M.data[i.val] (.node vs[j.val] []) (List.getElem?_eq_getElem i.2) (by rw [hV, List.getElem?_map, List.getElem?_eq_getElem j.2]; rfl)
    have hval := hd d (diff_one hd1)
    rw [hself] at hval
    rw [hcols, hVl] at hd2
    exact ⟨g', ⟨g, hder.1, hder.2⟩, d, hd2, hval⟩
  choose D hD using key
  refine ⟨fun i j => D i j, ⟨by rw [hrows], by rw [hcols, hVl], by rw [hlen, hrows, hcols, hVl], hsmall, fun i j => (hD i j).2⟩, fun i j f v t₀ hf hv1 ht => ?_⟩
  obtain ⟨hi, rfl⟩ := List.getElem?_eq_some_iff.1 hf
  obtain ⟨hj', rfl⟩ := List.getElem?_eq_some_iff.1 hv1
  obtain ⟨hj2, rfl⟩ := List.getElem?_eq_some_iff.1 ht
  exact (hD i j).1

/-- **C67** (dimensions). The Jacobian is refused unless the functions and the variables are vectors. -/
theorem C67_dimensions (cfg : Expr F → DiffCfg F) (M V : Mat (Expr F)) :
    ((M.rows ≠ 1 ∧ M.cols ≠ 1) ∨ (V.rows ≠ 1 ∧ V.cols ≠ 1) ∨ M.data = [] ∨ V.data = [] → matJacobian cfg M V = .error .dimension) := by
  intro h
  unfold matJacobian
  split_ifs with h1
  · rfl
  · unfold matJacobianOver
    split_ifs with h2
    · rfl
    · have h3 : M.data = [] ∨ V.data = [] := (h.resolve_left h2).resolve_left h1
      have : jacobian cfg M.data V.data = .error .dimension := by
        unfold jacobian
        rcases h3 with h3 | h3
        · rw [h3]; rfl
        · rw [h3]; cases M.data <;> rfl
      rw [this]; rfl

/-- A negative order is refused for expressions, but the derivative of a matrix of negative order is the matrix itself. -/
theorem C67_negative_refuted (D : DiffCfg F) (ha : diffArgOk D.arg = true) (m : Mat (Expr F)) (e : Expr F) (n : Int) (hn : n < 0) :
    matDiff D m n = .ok m ∧ diff D e n = .error .invalidArgument := by
  constructor
  · unfold matDiff
    rw [if_pos ha, show n.toNat = 0 by omega]
    have : ∀ l : List (Expr F), mapRes (diffTimes D 0) l = .ok l := by
      intro l
      induction l with
      | nil => rfl
      | cons a l ih => unfold mapRes; rw [ih]; rfl
    rw [this]; rfl
  · unfold diff; rw [if_pos hn]

/-! ## Non-vacuity -/

/-- `diff` of a column of two functions -/
example (t₀ : ℝ) :
    let M : Mat (Expr ℝ) := ⟨2, 1, [.pow vx (.int 2), .fn .sin [vx]]⟩
    LawfulRunOn (fun _ => True) 10 (fun _ K => matDiff (chainCfg K 3 freshAbove 2 vx .constant) M 1) ⟨2, 1, [.mul [.int 2, vx], .fn .cos [vx]]⟩ ∧
    ∀ e ∈ M.data, Smooth (Declared (fun _ => True) 0 .constant timesEnv (.var "x" .positive) t₀) .constant (fun _ => True) (along timesEnv vx) t₀ e := by
  intro M
  refine ⟨⟨by decide +kernel, noLic, fun ρ _ => noLic_true ρ, by decide +kernel⟩, ?_⟩
  simp only [M, List.mem_cons, List.not_mem_nil, or_false, forall_eq_or_imp, forall_eq]
  exact ⟨smooth_sq, smooth_sin⟩

/-- A Jacobian with two columns -/
example : LawfulRunOn (fun _ => True) 10 (fun _ K => matJacobian (fun v => chainCfg K 3 freshAbove 2 v .constant) ⟨1, 1, [.mul [vx, vy]]⟩ ⟨1, 2, [vx, vy]⟩)
      (⟨1, 2, [vy, vx]⟩ : Mat (Expr ℝ)) ∧
    ∀ p ∈ [(Head.var "x" .positive, (0 : ℝ)), (.var "y" .real, 0)], timesEnv.leaf p.1 = some ((p.2 : ℝ) : ℂ) ∧
      Smooth (Declared (fun _ => True) 0 .constant timesEnv p.1 p.2) .constant (fun _ => True) (along timesEnv (.node p.1 [])) p.2 (.mul [vx, vy]) := by
  refine ⟨⟨by decide +kernel, noLic, fun ρ _ => noLic_true ρ, by decide +kernel⟩, ?_⟩
  have h0 : ∀ (v : Head ℝ), v.isVar = true → ∀ (x : Head ℝ), x.isVar = true → eval (along timesEnv (.node v []) 0) (.node x []) = some 0 := by
    intro v hv x hx
    rw [eval_var_node hx]
    simp [along, Env.setVar, timesEnv, calculusEnv]
  simp only [List.mem_cons, List.not_mem_nil, or_false, forall_eq_or_imp, forall_eq]
  refine ⟨⟨by simp [timesEnv, calculusEnv], .mul ?_⟩, ⟨by simp [timesEnv, calculusEnv], .mul ?_⟩⟩ <;>
  · simp only [List.mem_cons, List.not_mem_nil, or_false, forall_eq_or_imp, forall_eq]
    exact ⟨.leaf rfl rfl (h0 _ rfl _ rfl), .leaf rfl rfl (h0 _ rfl _ rfl)⟩

end Wf.Sym
