import Verif.Sym.MatExprSpec
import Verif.Sym.QuatReal
import Verif.Mat.HomLemmas

/-!
# Entries together with their values
-/

namespace Wf.Sym

open Mat

variable {F : Type} [DecidableEq F] [FnSem F]

/-- An entry, or the exception of the operation that should have made it, together with its value. -/
structure VE (ρ : Env F) where
  e : Res (Expr F)
  z : ℂ
  has : Runs e (Has ρ · z)

theorem runs_list {ρ : Env F} (l : List (VE ρ)) : Runs ((l.map VE.e).mapM id) fun xs => List.Forall₂ (Has ρ) xs (l.map VE.z) := by
  induction l with
  | nil => exact Runs.pure .nil
  | cons a l ih =>
    rw [List.map_cons, List.map_cons, List.mapM_cons]
    refine Runs.bind a.has fun x hx => ?_
    refine Runs.bind ih fun xs hxs => ?_
    exact Runs.pure (.cons hx hxs)

theorem sumO_has {ρ : Env F} {xs : List (Expr F)} {zs : List ℂ} (h : List.Forall₂ (Has ρ) xs zs) :
    (∀ t ∈ xs, Good t) ∧ sumO (xs.map (eval ρ)) = some zs.sum := by
  induction h with
  | nil => exact ⟨by simp, rfl⟩
  | cons h _ ih =>
    refine ⟨by simpa using ⟨h.1, ih.1⟩, ?_⟩
    rw [List.map_cons, sumO_cons, h.2, ih.2, List.sum_cons]
    rfl

section
variable {lic : Lic F} {ρ : Env F} {K : Ctors F} (hK : Sound lic ρ K) (hl : lic.TrueAt ρ)

open Classical in
/-- The operations on entries together with their values. A quotient by an entry of value zero is an exception. -/
noncomputable def veOps : Ops (VE ρ) where
  zero := ⟨.ok (.int 0), 0, fun _ h => by cases h; exact hv_zero⟩
  one := ⟨.ok (.int 1), 1, fun _ h => by cases h; exact hv_one⟩
  add a b := ⟨do addE K (← a.e) (← b.e), a.z + b.z, Runs.bind a.has fun _ hx => Runs.bind b.has fun _ hy _ h => hv_add hK hl hx hy h⟩
  sub a b := ⟨do subE K (← a.e) (← b.e), a.z - b.z, Runs.bind a.has fun _ hx => Runs.bind b.has fun _ hy _ h => hv_sub hK hl hx hy h⟩
  mul a b := ⟨do mulE K (← a.e) (← b.e), a.z * b.z, Runs.bind a.has fun _ hx => Runs.bind b.has fun _ hy _ h => hv_mul hK hl hx hy h⟩
  div a b := ⟨if b.z = 0 then .error .ub else do divE K (← a.e) (← b.e), a.z / b.z, by
    by_cases hb : b.z = 0
    · rw [if_pos hb]
      intro r h
      cases h
    · rw [if_neg hb]
      refine Runs.bind a.has fun _ hx => Runs.bind b.has fun _ hy _ h => ?_
      rw [div_eq_mul_inv]
      exact hv_div hK hl hx hy hb h⟩
  sum l := ⟨do K.add (← (l.map VE.e).mapM id), (l.map VE.z).sum, Runs.bind (runs_list l) fun xs hxs r h =>
    have h1 := sumO_has hxs
    have h2 := hK.add xs r h1.1 h
    ⟨h2.1, h2.2 hl _ h1.2⟩⟩
  isZero a := (exprOps K).isZero a.e

theorem veOps_values : (veOps hK hl).FieldValues VE.z where
  zero := rfl
  one := rfl
  add _ _ := rfl
  sub _ _ := rfl
  mul _ _ := rfl
  sum _ _ := rfl
  div _ _ _ := rfl
  isZero a h := by
    have h' : (match a.e with | .ok e => isInt 0 e | .error _ => false) = true := h
    cases he : a.e with
    | error e => rw [he] at h'; cases h'
    | ok e =>
      rw [he] at h'
      exact hv_isZero (a.has e he).2 h'

/-- There is an entry, and its value is not zero. -/
def Divides (ρ : Env F) (x : Res (Expr F)) : Prop := ∃ e, x = .ok e ∧ eval ρ e ≠ some 0

theorem veOps_hom : (veOps hK hl).Hom (exprOps K) VE.e (Divides ρ) where
  zero := rfl
  one := rfl
  add _ _ := rfl
  sub _ _ := rfl
  mul _ _ := rfl
  sum _ := rfl
  isZero _ := rfl
  div a b := by
    rintro ⟨e, he, hne⟩
    have hb : b.z ≠ 0 := fun h => hne (by rw [(b.has e he).2, h])
    show (if b.z = 0 then _ else _) = _
    rw [if_neg hb]
    rfl

end

/-! ## Into entries with values and back -/

open Classical in
/-- An expression together with its value. -/
noncomputable def VE.of (ρ : Env F) (x : Expr F) : VE ρ :=
  if h : ∃ z, Has ρ x z then ⟨.ok x, h.choose, fun _ hy => by cases hy; exact h.choose_spec⟩ else ⟨.error .ub, 0, fun _ hy => by cases hy⟩

theorem VE.of_has {ρ : Env F} {x : Expr F} {z : ℂ} (h : Has ρ x z) : (VE.of ρ x).e = .ok x ∧ (VE.of ρ x).z = z := by
  have hex : ∃ z, Has ρ x z := ⟨z, h⟩
  have hc := hex.choose_spec
  unfold VE.of
  rw [dif_pos hex]
  refine ⟨rfl, ?_⟩
  show hex.choose = z
  have := hc.2.symm.trans h.2
  exact Option.some.inj this

theorem get_eq_data {E : Type} {m : Mat E} {r c : Nat} (hr : m.rows = r) (hc : m.cols = c) (i : Fin r) (j : Fin c) :
    m.get (i : Nat) (j : Nat) = match m.data[i.val * c + j.val]? with | some x => .ok x | none => .error .ub := by
  unfold Mat.get Mat.getUnchecked vecAt
  rw [if_neg (by have := i.isLt; have := j.isLt; omega), hc]
  have e : ((i.val : Int) * (c : Int) + (j.val : Int)) = ((i.val * c + j.val : Nat) : Int) := by push_cast; rfl
  rw [e, if_neg (by omega), Int.toNat_natCast]
  cases m.data[i.val * c + j.val]? <;> rfl

theorem HasMat.mem {ρ : Env F} {m : Mat (Expr F)} {r c : Nat} {M : Matrix (Fin r) (Fin c) ℂ} (h : HasMat ρ m M) {e : Expr F} (he : e ∈ m.data) :
    ∃ z, Has ρ e z := by
  obtain ⟨k, hk, hk'⟩ := List.getElem_of_mem he
  have hlt : k < r * c := by rw [← h.length]; exact hk
  have hc : 0 < c := Nat.pos_of_ne_zero (by rintro rfl; simp at hlt)
  obtain ⟨x, hx, hv⟩ := h.entry ⟨k / c, Nat.div_lt_of_lt_mul (by rw [Nat.mul_comm]; exact hlt)⟩ ⟨k % c, Nat.mod_lt _ hc⟩
  have e1 : k / c * c + k % c = k := by rw [Nat.mul_comm]; exact Nat.div_add_mod k c
  simp only [e1] at hx
  rw [List.getElem?_eq_getElem hk, hk'] at hx
  cases hx
  exact ⟨_, hv⟩

theorem HasMat.wf {ρ : Env F} {m : Mat (Expr F)} {r c : Nat} {M : Matrix (Fin r) (Fin c) ℂ} (h : HasMat ρ m M) : m.WF :=
  ⟨by rw [h.rows]; omega, by rw [h.cols]; omega, by rw [h.rows, h.cols, h.length]; push_cast; rfl, by rw [h.rows, h.cols]; exact_mod_cast h.small⟩

/-- The entries of a matrix together with their values. -/
theorem HasMat.entries {ρ : Env F} {m : Mat (Expr F)} {r c : Nat} {M : Matrix (Fin r) (Fin c) ℂ} (h : HasMat ρ m M) :
    ∃ m' : Mat (VE ρ), m'.map VE.e = liftM m ∧ m'.WF ∧ m'.rows = r ∧ m'.cols = c ∧ toMatrix VE.z m' r c = M := by
  refine ⟨m.map (VE.of ρ), ?_, WF_map.2 h.wf, h.rows, h.cols, ?_⟩
  · simp only [Mat.map, liftM, List.map_map]
    congr 1
    refine List.map_congr_left fun x hx => ?_
    obtain ⟨z, hz⟩ := h.mem hx
    exact (VE.of_has hz).1
  · ext i j
    obtain ⟨e, he, hv⟩ := h.entry i j
    rw [toMatrix_apply VE.z (m.map (VE.of ρ)) i j (x := VE.of ρ e)]
    · exact (VE.of_has hv).2
    · rw [get_map, get_eq_data h.rows h.cols, he]
      rfl

theorem mapM_id_ok {α : Type} {l : List (Res α)} {xs : List α} (h : l.mapM id = .ok xs) : l = xs.map .ok := by
  induction l generalizing xs with
  | nil => cases h; rfl
  | cons a l ih =>
    rw [List.mapM_cons] at h
    cases ha : a with
    | error e => rw [ha] at h; cases h
    | ok x =>
      cases hl : l.mapM id with
      | error e => rw [ha, hl] at h; cases h
      | ok ys =>
        rw [ha, hl] at h
        cases h
        rw [ih hl]
        rfl

theorem collect_inv {m : Mat (Res (Expr F))} {x : Mat (Expr F)} (h : collectM m = .ok x) : m = liftM x := by
  unfold collectM at h
  cases hd : m.data.mapM id with
  | error e => rw [hd] at h; cases h
  | ok xs =>
    rw [hd] at h
    cases h
    have := mapM_id_ok hd
    show (⟨m.rows, m.cols, m.data⟩ : Mat _) = _
    rw [this]
    rfl

/-- The expressions of entries with values. -/
theorem hasMat_of_lift {ρ : Env F} {m : Mat (VE ρ)} {x : Mat (Expr F)} {r c : Nat} (h : m.map VE.e = liftM x) (hw : m.WF) (hr : m.rows = r) (hc : m.cols = c) :
    HasMat ρ x (toMatrix VE.z m r c) := by
  have e1 : m.rows = x.rows := congrArg Mat.rows h
  have e2 : m.cols = x.cols := congrArg Mat.cols h
  have e3 : m.data.map VE.e = x.data.map .ok := congrArg Mat.data h
  have hlen : m.data.length = x.data.length := by have := congrArg List.length e3; simpa using this
  have hsz : (m.data.length : Int) = (r * c : Nat) := by rw [hw.size_eq, hr, hc]; push_cast; rfl
  refine ⟨by rw [← e1, hr], by rw [← e2, hc], by rw [← hlen]; exact_mod_cast hsz, by have := hw.size_lt; rw [hr, hc] at this; exact_mod_cast this, fun i j => ?_⟩
  have hk : i.val * c + j.val < m.data.length := by
    have : m.data.length = r * c := by exact_mod_cast hsz
    rw [this]
    calc i.val * c + j.val < i.val * c + c := by have := j.isLt; omega
      _ = (i.val + 1) * c := by ring
      _ ≤ r * c := Nat.mul_le_mul_right c i.isLt
  have hx : m.get (i : Nat) (j : Nat) = .ok m.data[i.val * c + j.val] := by
    rw [get_eq_data hr hc, List.getElem?_eq_getElem hk]
  rw [toMatrix_apply VE.z m i j hx]
  have he := congrArg (fun l => l[i.val * c + j.val]?) e3
  simp only [List.getElem?_map, List.getElem?_eq_getElem hk, List.getElem?_eq_getElem (hlen ▸ hk), Option.map_some, Option.some.injEq] at he
  exact ⟨_, List.getElem?_eq_getElem (hlen ▸ hk), VE.has _ _ he⟩

/-! ## Functions on matrices -/

section
variable {lic : Lic F} {ρ : Env F} {K : Ctors F} (hK : Sound lic ρ K) (hl : lic.TrueAt ρ)
include hK hl

/-- From a run on entries with values to a run on expressions. -/
theorem runs_collect {run : Res (Mat (Res (Expr F)))} {m : Mat (VE ρ)} {r c : Nat} {M : Matrix (Fin r) (Fin c) ℂ} (h : run = .ok (m.map VE.e)) (hw : m.WF)
    (hr : m.rows = r) (hc : m.cols = c) (hM : toMatrix VE.z m r c = M) : Runs (run >>= collectM) (HasMat ρ · M) := by
  rw [h, ← hM]
  intro x hx
  exact hasMat_of_lift (collect_inv hx) hw hr hc

theorem runs_matMul {a b : Mat (Expr F)} {r n c : Nat} {A : Matrix (Fin r) (Fin n) ℂ} {B : Matrix (Fin n) (Fin c) ℂ} (ha : HasMat ρ a A) (hb : HasMat ρ b B)
    (hs : r * c < 2 ^ 31) : Runs (matMulE K a b) (HasMat ρ · (A * B)) := by
  obtain ⟨a', ea, wa, ra, ca, rfl⟩ := ha.entries
  obtain ⟨b', eb, wb, rb, cb, rfl⟩ := hb.entries
  obtain ⟨m, hm, hw, hr, hc, hv⟩ := C26_mul (veOps hK hl) VE.z (veOps_values hK hl).toValues a' b' wa wb r n c ra ca rb cb (by exact_mod_cast hs)
  refine runs_collect hK hl ?_ hw hr hc hv
  rw [← ea, ← eb, mul_map (veOps_hom hK hl), hm]
  rfl

theorem runs_matAdd {a b : Mat (Expr F)} {r c : Nat} {A B : Matrix (Fin r) (Fin c) ℂ} (ha : HasMat ρ a A) (hb : HasMat ρ b B) :
    Runs (matAddE K a b) (HasMat ρ · (A + B)) := by
  obtain ⟨a', ea, wa, ra, ca, rfl⟩ := ha.entries
  obtain ⟨b', eb, wb, rb, cb, rfl⟩ := hb.entries
  obtain ⟨m, hm, hw, hr, hc, hv⟩ := (C26_add_sub_scale (veOps hK hl) VE.z (veOps_values hK hl).toValues a' b' wa wb r c ra ca rb cb
    (veOps hK hl).zero).1
  refine runs_collect hK hl ?_ hw hr hc hv
  rw [← ea, ← eb, add_map (veOps_hom hK hl), hm]
  rfl

theorem runs_matSub {a b : Mat (Expr F)} {r c : Nat} {A B : Matrix (Fin r) (Fin c) ℂ} (ha : HasMat ρ a A) (hb : HasMat ρ b B) :
    Runs (matSubE K a b) (HasMat ρ · (A - B)) := by
  obtain ⟨a', ea, wa, ra, ca, rfl⟩ := ha.entries
  obtain ⟨b', eb, wb, rb, cb, rfl⟩ := hb.entries
  obtain ⟨m, hm, hw, hr, hc, hv⟩ := (C26_add_sub_scale (veOps hK hl) VE.z (veOps_values hK hl).toValues a' b' wa wb r c ra ca rb cb
    (veOps hK hl).zero).2.1
  refine runs_collect hK hl ?_ hw hr hc hv
  rw [← ea, ← eb, sub_map (veOps_hom hK hl), hm]
  rfl

theorem runs_matScale {a : Mat (Expr F)} {s : Expr F} {r c : Nat} {A : Matrix (Fin r) (Fin c) ℂ} {z : ℂ} (ha : HasMat ρ a A) (hs : Has ρ s z) :
    Runs (matScaleE K a s) (HasMat ρ · (z • A)) := by
  obtain ⟨a', ea, wa, ra, ca, rfl⟩ := ha.entries
  obtain ⟨m, hm, hw, hr, hc, hv⟩ := (C26_add_sub_scale (veOps hK hl) VE.z (veOps_values hK hl).toValues a' a' wa wa r c ra ca ra ca (VE.of ρ s)).2.2
  obtain ⟨e1, e2⟩ := VE.of_has hs
  rw [e2] at hv
  refine runs_collect hK hl ?_ hw hr hc hv
  rw [← ea, ← e1, scale_map (veOps_hom hK hl), hm]
  rfl

theorem runs_squares {xs : List (Expr F)} {zs : List ℂ} (h : List.Forall₂ (Has ρ) xs zs) :
    Runs (mapRes (fun x => K.pow x (.int 2)) xs) fun ys => List.Forall₂ (Has ρ) ys (zs.map (· ^ 2)) := by
  induction h with
  | nil => intro r hr; cases hr; exact .nil
  | @cons x z xs zs hx _ ih =>
    intro r hr
    unfold mapRes at hr
    cases h1 : K.pow x (.int 2) with
    | error e => simp [h1] at hr
    | ok y =>
      cases h2 : mapRes (fun x => K.pow x (.int 2)) xs with
      | error e => simp [h1, h2] at hr
      | ok ys =>
        simp only [h1, h2, Except.ok.injEq] at hr
        subst hr
        exact .cons (hv_sq hK hl hx h1) (ih ys h2)

end

theorem forall₂_of_get {α β : Type} {R : α → β → Prop} {l : List α} {n : Nat} {f : Fin n → β} (hl : l.length = n) (h : ∀ k : Fin n, ∃ a, l[k.val]? = some a ∧ R a (f k)) :
    List.Forall₂ R l (List.ofFn f) := by
  rw [List.forall₂_iff_get]
  refine ⟨by simpa using hl, fun k h1 h2 => ?_⟩
  obtain ⟨a, ha, hr⟩ := h ⟨k, hl ▸ h1⟩
  rw [List.getElem?_eq_getElem h1] at ha
  cases ha
  simpa using hr

theorem HasMat.values {ρ : Env F} {m : Mat (Expr F)} {r c : Nat} {M : Matrix (Fin r) (Fin c) ℂ} (h : HasMat ρ m M) :
    List.Forall₂ (Has ρ) m.data (List.ofFn fun k : Fin (r * c) => M (finProdFinEquiv.symm k).1 (finProdFinEquiv.symm k).2) := by
  refine forall₂_of_get h.length fun k => ?_
  obtain ⟨e, he, hv⟩ := h.entry (finProdFinEquiv.symm k).1 (finProdFinEquiv.symm k).2
  refine ⟨e, ?_, hv⟩
  rw [← he]
  congr 1
  have := congrArg Fin.val (finProdFinEquiv.apply_symm_apply k)
  rw [finProdFinEquiv_apply_val] at this
  exact this.symm.trans (by ring)

section
variable {lic : Lic F} {ρ : Env F} {K : Ctors F} (hK : Sound lic ρ K) (hl : lic.TrueAt ρ)
include hK hl

theorem runs_matSquaredNorm {a : Mat (Expr F)} {r c : Nat} {A : Matrix (Fin r) (Fin c) ℂ} (ha : HasMat ρ a A) :
    Runs (matSquaredNormE K a) (Has ρ · (∑ i, ∑ j, A i j ^ 2)) := by
  refine Runs.bind (runs_squares hK hl ha.values) fun ys hys r' hr => ?_
  have h1 := sumO_has hys
  have h2 := hK.add ys r' h1.1 hr
  refine ⟨h2.1, h2.2 hl _ (h1.2.trans ?_)⟩
  congr 1
  rw [List.map_ofFn, List.sum_ofFn, ← Fintype.sum_prod_type', ← finProdFinEquiv.sum_comp]
  refine Finset.sum_congr rfl fun x _ => ?_
  rw [Function.comp_apply, Equiv.symm_apply_apply]

/-- The factors of a matrix. -/
theorem runs_lu {a : Mat (Expr F)} {r c : Nat} {A : Matrix (Fin r) (Fin c) ℂ} (ha : HasMat ρ a A) (h1 : 1 ≤ r) (h2 : r ≤ c) (hcc : c * c < 2 ^ 31)
    {fs : Mat (Expr F) × Mat (Expr F) × Mat (Expr F) × Mat (Expr F)} (h : luE K a = .ok fs) (hp : PivotsHaveValues ρ fs.2.2.1 r c) :
    ∃ (a' P L U Q : Mat (VE ρ)), a'.map VE.e = liftM a ∧ a'.WF ∧ a'.rows = r ∧ a'.cols = c ∧ toMatrix VE.z a' r c = A ∧
      factorizeFullPivLu (veOps hK hl) a' = .ok (P, L, U, Q) ∧ P.map VE.e = liftM fs.1 ∧ L.map VE.e = liftM fs.2.1 ∧ U.map VE.e = liftM fs.2.2.1 ∧
      Q.map VE.e = liftM fs.2.2.2 ∧ PivotsNonzero (veOps hK hl) VE.z U ∧
      factorizeFullPivLu (exprOps K) (a'.map VE.e) = .ok (P.map VE.e, L.map VE.e, U.map VE.e, Q.map VE.e) := by
  obtain ⟨a', ea, wa, ra, ca, eA⟩ := ha.entries
  unfold luE at h
  rw [← ea] at h
  cases hf : factorizeFullPivLu (exprOps K) (a'.map VE.e) with
  | error e => rw [hf] at h; cases h
  | ok res =>
    obtain ⟨P', L', U', Q'⟩ := res
    rw [hf] at h
    simp only [bind, Except.bind] at h
    cases hP : collectM P' with
    | error e => rw [hP] at h; cases h
    | ok P₀ =>
      cases hL : collectM L' with
      | error e => rw [hP, hL] at h; cases h
      | ok L₀ =>
        cases hU : collectM U' with
        | error e => rw [hP, hL, hU] at h; cases h
        | ok U₀ =>
          cases hQ : collectM Q' with
          | error e => rw [hP, hL, hU, hQ] at h; cases h
          | ok Q₀ =>
            rw [hP, hL, hU, hQ] at h
            cases h
            have eU := collect_inv hU
            obtain ⟨-, u1, u2⟩ := factorize_inv (exprOps K) (a'.map VE.e) (WF_map.2 wa) r c ra ca h1 h2 hf
            have hdiv : ∀ k : Nat, k + 1 < r → ∀ x, U'.get k k = .ok x → (exprOps K).isZero x = false → Divides ρ x := by
              intro k hk x hx hz
              have e4 : U'.data = U₀.data.map .ok := by rw [eU]; rfl
              rw [get_eq_data u1 u2 ⟨k, by omega⟩ ⟨k, by omega⟩, e4] at hx
              simp only [List.getElem?_map] at hx
              cases hd : U₀.data[k * c + k]? with
              | none => rw [hd] at hx; cases hx
              | some e =>
                rw [hd] at hx
                cases hx
                refine ⟨e, rfl, hp k e hk hd ?_⟩
                rintro rfl
                have hz' : isInt 0 (.int 0 : Expr F) = false := hz
                rw [isInt_iff.2 rfl] at hz'
                cases hz'
            obtain ⟨P, L, U, Q, e, rfl, rfl, rfl, rfl⟩ := factorize_map (veOps_hom hK hl) a' wa r c ra ca h1 h2 P' L' U' Q' hf hdiv
            refine ⟨a', P, L, U, Q, ea, wa, ra, ca, eA, e, collect_inv hP, collect_inv hL, eU, collect_inv hQ, ?_, hf⟩
            intro k hk x hx hz h0
            obtain ⟨y, hy, hne⟩ := hdiv k (by have : U.rows = r := u1; omega) x.e (by rw [get_map, hx]; rfl) hz
            exact hne (by rw [(x.has y hy).2, h0])

theorem runs_luProduct {a : Mat (Expr F)} {r c : Nat} {A : Matrix (Fin r) (Fin c) ℂ} (ha : HasMat ρ a A) (h1 : 1 ≤ r) (h2 : r ≤ c) (hcc : c * c < 2 ^ 31)
    {P L U Q : Mat (Expr F)} (h : luE K a = .ok (P, L, U, Q)) (hp : PivotsHaveValues ρ U r c) :
    ∃ (MP ML : Matrix (Fin r) (Fin r) ℂ) (MU : Matrix (Fin r) (Fin c) ℂ) (MQ : Matrix (Fin c) (Fin c) ℂ),
      HasMat ρ P MP ∧ HasMat ρ L ML ∧ HasMat ρ U MU ∧ HasMat ρ Q MQ ∧ IsPermutationMatrix MP ∧ IsPermutationMatrix MQ ∧
      (∀ i, ML i i = 1) ∧ (∀ i j, i < j → ML i j = 0) ∧ (∀ i j, j.val < i.val → MU i j = 0) ∧ MP * ML * MU * MQ = A := by
  obtain ⟨a', P', L', U', Q', -, wa, ra, ca, eA, e, eP, eL, eU, eQ, hpv, -⟩ := runs_lu hK hl ha h1 h2 hcc h hp
  obtain ⟨P₁, L₁, U₁, Q₁, e', p1, p2, p3, l1, l2, l3, u1, u2, u3, q1, q2, q3, k1, k2, k3⟩ :=
    C27_lu (veOps hK hl) VE.z (veOps_values hK hl) a' wa r c ra ca h1 h2 hcc
  rw [e] at e'
  simp only [Except.ok.injEq, Prod.mk.injEq] at e'
  obtain ⟨rfl, rfl, rfl, rfl⟩ := e'
  obtain ⟨k4, k5, k6, k7⟩ := k3 hpv
  exact ⟨_, _, _, _, hasMat_of_lift eP p1 p2 p3, hasMat_of_lift eL l1 l2 l3, hasMat_of_lift eU u1 u2 u3, hasMat_of_lift eQ q1 q2 q3, k1, k2, k4, k5, k6, by rw [k7, eA]⟩

theorem runs_det_small {a : Mat (Expr F)} {n : Nat} {A : Matrix (Fin n) (Fin n) ℂ} (ha : HasMat ρ a A) (h1 : 1 ≤ n) (h3 : n ≤ 3) :
    Runs (determinantE K a) (Has ρ · A.det) := by
  obtain ⟨a', ea, wa, ra, ca, rfl⟩ := ha.entries
  obtain ⟨d, hd, hv⟩ := C28_small (veOps hK hl) VE.z (veOps_values hK hl).toValues (fun _ => (veOps hK hl).zero) a' wa n ra ca h1 h3
  have hm := determinant_small_map (veOps_hom hK hl) (fun _ => (veOps hK hl).zero) (fun s => .ok (.int s)) a' (by rw [ra]; omega)
  rw [hd] at hm
  unfold determinantE
  rw [← ea, hm]
  show Runs (if 4 ≤ a.rows then _ else d.e) _
  rw [if_neg (by rw [ha.rows]; omega), ← hv]
  exact d.has

theorem runs_det_large {a : Mat (Expr F)} {n : Nat} {A : Matrix (Fin n) (Fin n) ℂ} (ha : HasMat ρ a A) (h4 : 4 ≤ n)
    {fs : Mat (Expr F) × Mat (Expr F) × Mat (Expr F) × Mat (Expr F)} (h : luE K a = .ok fs) (hp : PivotsHaveValues ρ fs.2.2.1 n n) :
    Runs (determinantE K a) (Has ρ · A.det) := by
  obtain ⟨a', P', L', U', Q', ea, wa, ra, ca, rfl, e, -, -, eU, -, hpv, e'⟩ := runs_lu hK hl ha (by omega) le_rfl ha.small h hp
  have hsg : ∀ s : Int, InI64 s → Runs (.ok (.int s) : Res (Expr F)) (Has ρ · (s : ℂ)) := by
    intro s hs r hr
    cases hr
    exact ⟨good_int.2 hs, eval_int ρ s⟩
  let sgn : Int → VE ρ := fun s => if hs : InI64 s then ⟨.ok (.int s), s, hsg s hs⟩ else (veOps hK hl).zero
  have i1 : InI64 1 := ⟨by decide, by decide⟩
  have i2 : InI64 (-1) := ⟨by decide, by decide⟩
  have s1 : ∀ s : Int, s = 1 ∨ s = -1 → (sgn s).z = s ∧ (sgn s).e = .ok (.int s) := by
    rintro s (rfl | rfl)
    · simp only [sgn, dif_pos i1]; exact ⟨trivial, trivial⟩
    · simp only [sgn, dif_pos i2]; exact ⟨trivial, trivial⟩
  obtain ⟨d, _, _, U₁, _, hd, ef, hv⟩ := C28_large_partial (veOps hK hl) VE.z (veOps_values hK hl) sgn (fun s hs => (s1 s hs).1) a' wa n ra ca h4
  rw [e] at ef
  simp only [Except.ok.injEq, Prod.mk.injEq] at ef
  obtain ⟨rfl, rfl, rfl, rfl⟩ := ef
  obtain ⟨⟨P, Q, hlu'⟩, -⟩ := factorize_inv (exprOps K) (a'.map VE.e) (WF_map.2 wa) n n ra ca (by omega) le_rfl e'
  obtain ⟨⟨P₂, Q₂, hlu⟩, u1, u2⟩ := factorize_inv (veOps hK hl) a' wa n n ra ca (by omega) le_rfl e
  obtain ⟨L₃, U₃, hlu3, -⟩ := luInternal_map (veOps_hom hK hl) a' wa n n ra ca (by omega) le_rfl P Q _ _ hlu' (by
    intro k hk x hx hz
    rw [get_map] at hx
    cases hg : U'.get k k with
    | error y => rw [hg] at hx; cases hx
    | ok y =>
      rw [hg] at hx
      cases hx
      have hne := hpv k (by omega) y hg hz
      cases he : y.e with
      | error w =>
        have h5 : (U'.map VE.e).get k k = .ok y.e := by rw [get_map, hg]; rfl
        rw [eU, show liftM fs.2.2.1 = fs.2.2.1.map .ok from rfl, get_map, he] at h5
        cases hq : fs.2.2.1.get k k with
        | error w => rw [hq] at h5; cases h5
        | ok w => rw [hq] at h5; cases h5
      | ok w => exact ⟨w, rfl, fun h0 => hne (by have := (y.has w he).2; rw [h0] at this; exact (Option.some.inj this).symm)⟩)
  rw [hlu] at hlu3
  simp only [Except.ok.injEq, Prod.mk.injEq] at hlu3
  obtain ⟨rfl, rfl, rfl, rfl⟩ := hlu3
  have hm := determinant_large_map (veOps_hom hK hl) sgn (fun s => .ok (.int s)) (fun s hs => (s1 s hs).2) a' (by rw [ra]; omega) P₂ Q₂ L' U' hlu hlu'
  rw [hd] at hm
  unfold determinantE
  rw [← ea, hm]
  show Runs (if 4 ≤ a.rows then (luE K a >>= fun _ => d.e) else d.e) _
  rw [if_pos (by rw [ha.rows]; omega), h, ← hv hpv]
  exact d.has

end

/-! ## Jacobians of rotations -/

section
variable {ρ : Env F}

theorem ofReal_mul {r n c : Nat} (A : Matrix (Fin r) (Fin n) ℝ) (B : Matrix (Fin n) (Fin c) ℝ) : ofReal (A * B) = ofReal A * ofReal B := by
  ext i j
  simp [ofReal, Matrix.mul_apply]

theorem ofReal_add {r c : Nat} (A B : Matrix (Fin r) (Fin c) ℝ) : ofReal (A + B) = ofReal A + ofReal B := by
  ext i j
  simp [ofReal]

theorem ofReal_smul {r c : Nat} (x : ℝ) (A : Matrix (Fin r) (Fin c) ℝ) : ofReal (x • A) = (x : ℂ) • ofReal A := by
  ext i j
  simp [ofReal]

theorem hasMat3 {a b c d e f g h i : Expr F} {M : Matrix (Fin 3) (Fin 3) ℝ} (ha : RealIf True ρ a (M 0 0)) (hb : RealIf True ρ b (M 0 1))
    (hc : RealIf True ρ c (M 0 2)) (hd : RealIf True ρ d (M 1 0)) (he : RealIf True ρ e (M 1 1)) (hf : RealIf True ρ f (M 1 2))
    (hg : RealIf True ρ g (M 2 0)) (hh : RealIf True ρ h (M 2 1)) (hi : RealIf True ρ i (M 2 2)) :
    HasMat ρ ⟨3, 3, [a, b, c, d, e, f, g, h, i]⟩ (ofReal M) := by
  refine ⟨rfl, rfl, rfl, by decide, fun k l => ?_⟩
  fin_cases k <;> fin_cases l
  · exact ⟨a, rfl, ha.has⟩
  · exact ⟨b, rfl, hb.has⟩
  · exact ⟨c, rfl, hc.has⟩
  · exact ⟨d, rfl, hd.has⟩
  · exact ⟨e, rfl, he.has⟩
  · exact ⟨f, rfl, hf.has⟩
  · exact ⟨g, rfl, hg.has⟩
  · exact ⟨h, rfl, hh.has⟩
  · exact ⟨i, rfl, hi.has⟩

theorem hasMat_identity : HasMat ρ (identity3 : Mat (Expr F)) (ofReal (1 : Matrix (Fin 3) (Fin 3) ℝ)) := by
  refine hasMat3 ?_ ?_ ?_ ?_ ?_ ?_ ?_ ?_ ?_ <;> first | exact real_one | exact real_zero

end

section
variable {lic : Lic F} {ρ : Env F} {K : Ctors F} {P : Prop} (hK : Sound lic ρ K) (hl : lic.TrueAt ρ)
include hK hl

theorem real_powNat {a : Expr F} {x : ℝ} (ha : RealIf P ρ a x) (n : Nat) (hn : n ≠ 0) (hi : InI64 n) : Runs (K.pow a (.int n)) (RealIf P ρ · (x ^ n)) := by
  intro r h
  have h1 := hK.pow a (.int n) r ha.1 (good_int.2 hi) h
  refine ⟨h1.1, fun p => h1.2 hl _ ?_⟩
  rw [ha.2 p, eval_int]
  show powVal (x : ℂ) ((n : Int) : ℂ) = _
  by_cases hx : x = 0
  · rw [hx, Complex.ofReal_zero, powVal_zero_pos (by simpa using Nat.pos_of_ne_zero hn), zero_pow hn]
    simp
  · rw [powVal_of_ne (by exact_mod_cast hx)]
    push_cast
    rw [Complex.cpow_natCast]

theorem runs_skew {a b c : Expr F} {v : Fin 3 → ℝ} (ha : RealIf True ρ a (v 0)) (hb : RealIf True ρ b (v 1)) (hc : RealIf True ρ c (v 2)) :
    Runs (skewE K a b c) (HasMat ρ · (ofReal (Geo.skew v))) := by
  unfold skewE
  refine Runs.bind (real_neg hK hl hc) fun nz hz => ?_
  refine Runs.bind (real_neg hK hl ha) fun nx hx => ?_
  refine Runs.bind (real_neg hK hl hb) fun ny hy => ?_
  exact Runs.pure (hasMat3 real_zero hz hb hc real_zero hx hy ha real_zero)

/-- `I + c0 * S + c1 * S * S`. -/
theorem runs_series {s : Mat (Expr F)} {S : Matrix (Fin 3) (Fin 3) ℝ} {e0 e1 : Expr F} {c0 c1 : ℝ} (hs : HasMat ρ s (ofReal S)) (h0 : RealIf True ρ e0 c0)
    (h1 : RealIf True ρ e1 c1) :
    Runs (seriesE K s e0 e1) (HasMat ρ · (ofReal (1 + c0 • S + c1 • (S * S)))) := by
  refine Runs.bind (runs_matScale hK hl hs h0.has) fun a ha => ?_
  refine Runs.bind (runs_matAdd hK hl hasMat_identity ha) fun b hb => ?_
  refine Runs.bind (runs_matMul hK hl hs hs (by decide)) fun c hc => ?_
  refine Runs.bind (runs_matScale hK hl hc h1.has) fun d hd => ?_
  refine (runs_matAdd hK hl hb hd).mono fun r hr => ?_
  rw [ofReal_add, ofReal_add, ofReal_smul, ofReal_smul, ofReal_mul]
  exact hr

theorem real_three : RealIf P ρ (.int 3 : Expr F) 3 := by simpa using RealIf.int (P := P) (ρ := ρ) (n := 3) (by decide)

/-- The coefficients of the left Jacobian. -/
theorem real_leftCoeffs {m : Nat} {a : Expr F} {θ : ℝ} (ha : RealIf P ρ a θ) (h0 : P → θ ≠ 0) :
    Runs (leftC0 K m a) (RealIf P ρ · ((1 - Real.cos θ) / θ ^ 2)) ∧ Runs (leftC1 K m a) (RealIf P ρ · ((θ - Real.sin θ) / θ ^ 3)) := by
  constructor
  · refine Runs.bind (real_cos hK hl ha) fun b hb => ?_
    refine Runs.bind (real_sub hK hl real_one hb) fun c hc => ?_
    refine Runs.bind (real_powNat hK hl ha 2 (by decide) (by decide)) fun d hd => ?_
    exact real_div hK hl hc hd fun p => pow_ne_zero _ (h0 p)
  · refine Runs.bind (real_sin hK hl ha) fun b hb => ?_
    refine Runs.bind (real_sub hK hl ha hb) fun c hc => ?_
    refine Runs.bind (real_powNat hK hl ha 3 (by decide) (by decide)) fun d hd => ?_
    exact real_div hK hl hc hd fun p => pow_ne_zero _ (h0 p)

theorem real_inverseCoeff {m : Nat} {a : Expr F} {θ : ℝ} (ha : RealIf P ρ a θ) (h0 : P → θ ≠ 0) (h1 : P → Real.sin θ ≠ 0) :
    Runs (inverseC1 K m a) (RealIf P ρ · (1 / θ ^ 2 - (1 + Real.cos θ) / (2 * θ * Real.sin θ))) := by
  refine Runs.bind (real_powNat hK hl ha 2 (by decide) (by decide)) fun b hb => ?_
  refine Runs.bind (real_div hK hl real_one hb fun p => pow_ne_zero _ (h0 p)) fun c hc => ?_
  refine Runs.bind (real_cos hK hl ha) fun d hd => ?_
  refine Runs.bind (real_add hK hl real_one hd) fun e he => ?_
  refine Runs.bind (real_mul hK hl real_two ha) fun f hf => ?_
  refine Runs.bind (real_sin hK hl ha) fun g hg => ?_
  refine Runs.bind (real_mul hK hl hf hg) fun h hh => ?_
  refine Runs.bind (real_div hK hl he hh fun p => mul_ne_zero (mul_ne_zero two_ne_zero (h0 p)) (h1 p)) fun i hi => ?_
  exact real_sub hK hl hc hi

theorem real_quotient {n k : Int} (hn : InI64 n) (hk : InI64 k) (h0 : k ≠ 0) : Runs (divE K (.int n) (.int k : Expr F)) (RealIf P ρ · ((n : ℝ) / k)) :=
  real_div hK hl (RealIf.int hn) (RealIf.int hk) fun _ => by exact_mod_cast h0

variable {a b c ee : Expr F} {v : Fin 3 → ℝ} {eps : ℝ} {m : Nat}

theorem runs_leftJacobian_some (ha : RealIf True ρ a (v 0)) (hb : RealIf True ρ b (v 1)) (hc : RealIf True ρ c (v 2)) (he : RealIf True ρ ee eps)
    (h0 : 0 ≤ eps) : Runs (leftJacobianE K m a b c (some ee)) (HasMat ρ · (ofReal (Geo.leftJacobian v (some eps)))) := by
  have hθ : eps < Geo.vecAngle v → Geo.vecAngle v ≠ 0 := fun h => (lt_of_le_of_lt h0 h).ne'
  refine Runs.bind (real_length hK hl ha hb hc) fun t (ht : RealIf True ρ t (Geo.vecAngle v)) => ?_
  have ht' : RealIf (True ∧ eps < Geo.vecAngle v) ρ t (Geo.vecAngle v) := ht.mono And.left
  refine Runs.bind (real_leftCoeffs hK hl ht' fun p => hθ p.2).1 fun e0 h0' => ?_
  refine Runs.bind (real_leftCoeffs hK hl ht' fun p => hθ p.2).2 fun e1 h1' => ?_
  refine Runs.bind (real_quotient hK hl (P := True) (n := 1) (k := 2) (by decide) (by decide) (by decide)) fun e2 h2 => ?_
  refine Runs.bind (real_quotient hK hl (P := True) (n := 1) (k := 6) (by decide) (by decide) (by decide)) fun e3 h3 => ?_
  refine Runs.bind (runs_skew hK hl ha hb hc) fun s hs => ?_
  refine Runs.bind (real_lt he ht) fun cc hcc => ?_
  refine (runs_series hK hl hs (real_cond hcc h0' (h2.mono And.left)) (real_cond hcc h1' (h3.mono And.left))).mono fun r hr => ?_
  simpa [Geo.leftJacobian] using hr

theorem runs_leftJacobian_none (ha : RealIf True ρ a (v 0)) (hb : RealIf True ρ b (v 1)) (hc : RealIf True ρ c (v 2)) (h0 : Geo.vecAngle v ≠ 0) :
    Runs (leftJacobianE K m a b c none) (HasMat ρ · (ofReal (Geo.leftJacobian v none))) := by
  refine Runs.bind (real_length hK hl ha hb hc) fun t (ht : RealIf True ρ t (Geo.vecAngle v)) => ?_
  refine Runs.bind (real_leftCoeffs hK hl ht fun _ => h0).1 fun e0 h0' => ?_
  refine Runs.bind (real_leftCoeffs hK hl ht fun _ => h0).2 fun e1 h1' => ?_
  refine Runs.bind (real_quotient hK hl (P := True) (n := 1) (k := 2) (by decide) (by decide) (by decide)) fun e2 h2 => ?_
  refine Runs.bind (real_quotient hK hl (P := True) (n := 1) (k := 6) (by decide) (by decide) (by decide)) fun e3 h3 => ?_
  refine Runs.bind (runs_skew hK hl ha hb hc) fun s hs => ?_
  exact runs_series hK hl hs h0' h1'

theorem runs_inverseJacobian_some (ha : RealIf True ρ a (v 0)) (hb : RealIf True ρ b (v 1)) (hc : RealIf True ρ c (v 2)) (he : RealIf True ρ ee eps)
    (h0 : 0 ≤ eps) (h1 : eps < Geo.vecAngle v → Real.sin (Geo.vecAngle v) ≠ 0) :
    Runs (inverseLeftJacobianE K m a b c (some ee)) (HasMat ρ · (ofReal (Geo.inverseLeftJacobian v (some eps)))) := by
  have hθ : eps < Geo.vecAngle v → Geo.vecAngle v ≠ 0 := fun h => (lt_of_le_of_lt h0 h).ne'
  refine Runs.bind (real_length hK hl ha hb hc) fun t (ht : RealIf True ρ t (Geo.vecAngle v)) => ?_
  have ht' : RealIf (True ∧ eps < Geo.vecAngle v) ρ t (Geo.vecAngle v) := ht.mono And.left
  refine Runs.bind (real_quotient hK hl (P := True) (n := -1) (k := 2) (by decide) (by decide) (by decide)) fun e2 h2 => ?_
  refine Runs.bind (real_inverseCoeff hK hl ht' (fun p => hθ p.2) fun p => h1 p.2) fun e1 h1' => ?_
  refine Runs.bind (real_quotient hK hl (P := True) (n := 1) (k := 12) (by decide) (by decide) (by decide)) fun e3 h3 => ?_
  refine Runs.bind (runs_skew hK hl ha hb hc) fun s hs => ?_
  refine Runs.bind (real_lt he ht) fun cc hcc => ?_
  refine (runs_series hK hl hs h2 (real_cond hcc h1' (h3.mono And.left))).mono fun r hr => ?_
  simpa [Geo.inverseLeftJacobian] using hr

theorem runs_inverseJacobian_none (ha : RealIf True ρ a (v 0)) (hb : RealIf True ρ b (v 1)) (hc : RealIf True ρ c (v 2)) (h0 : Real.sin (Geo.vecAngle v) ≠ 0) :
    Runs (inverseLeftJacobianE K m a b c none) (HasMat ρ · (ofReal (Geo.inverseLeftJacobian v none))) := by
  have hθ : Geo.vecAngle v ≠ 0 := fun h => h0 (by rw [h, Real.sin_zero])
  refine Runs.bind (real_length hK hl ha hb hc) fun t (ht : RealIf True ρ t (Geo.vecAngle v)) => ?_
  refine Runs.bind (real_quotient hK hl (P := True) (n := -1) (k := 2) (by decide) (by decide) (by decide)) fun e2 h2 => ?_
  refine Runs.bind (real_inverseCoeff hK hl ht (fun _ => hθ) fun _ => h0) fun e1 h1' => ?_
  refine Runs.bind (real_quotient hK hl (P := True) (n := 1) (k := 12) (by decide) (by decide) (by decide)) fun e3 h3 => ?_
  refine Runs.bind (runs_skew hK hl ha hb hc) fun s hs => ?_
  refine (runs_series hK hl hs h2 h1').mono fun r hr => ?_
  simpa [Geo.inverseLeftJacobian] using hr

end

end Wf.Sym
