import Verif.Sym.SympyToLemmas
import Verif.Sym.FromIrLemmas
import Verif.Sym.FunctionProps

/-! # Lemmas: the conversion from SymPy -/

namespace Wf.Sym
open Complex Filter Topology

variable {F : Type} [DecidableEq F] [FnSem F]

/-- There is no derivative of order zero. -/
def NoOrderZero (h : Head F) (_ : List (Expr F)) : Prop := ∀ n, h = .deriv n → n ≠ 0

theorem noOrderZero_basic : Basic (NoOrderZero : Head F → List (Expr F) → Prop) := by
  constructor <;> intros <;> intro n hn <;> cases hn

theorem noOrderZero_of {h : Head F} {as : List (Expr F)} (hd : ∀ n, h ≠ .deriv n) : NoOrderZero h as := fun n hn => absurd hn (hd n)

/-- A node made from children with the values `vs` has the value of the node. -/
theorem rebuild_vals {lic : Lic F} {ρ : Env F} {K : Ctors F} (hK : Sound lic ρ K) {m : Nat} {h : Head F} {vs : List (Option ℂ)} {bs : List (Expr F)}
    {r : Expr F} (hi : h.interpreted = true) (hab : List.Forall₂ (fun v b => FnOk lic ρ b v) vs bs) (hr : rebuild K m h bs = .ok r) {x : Option ℂ}
    (hx : ∀ z, x = some z → ∀ e ρ', ρ'.symfn = ρ.symfn → headVal ρ' e h vs = some z) : FnOk lic ρ r x := by
  have hv : (List.range vs.length).map (fun i => vs.getD i none) = vs := by
    apply List.ext_getElem (by simp)
    intro i h1 h2
    simp [h2]
  have hf : List.Forall₂ (Carries lic (valEnv ρ fun i => vs.getD i none) ρ) ((List.range vs.length).map slot) bs := by
    rw [List.forall₂_iff_get] at hab ⊢
    refine ⟨by simpa using hab.1, fun i h1 h2 => ?_⟩
    have h3 : i < vs.length := by simpa using h1
    have := hab.2 i h3 h2
    have e1 : ((List.range vs.length).map (slot (F := F))).get ⟨i, h1⟩ = slot i := by simp
    rw [e1]
    unfold Carries
    rw [eval_slot]
    simpa [h3] using this
  refine node_stands hK hi hf hr fun z hz => ?_
  rw [eval, evals_eq, evals_slots, hv]
  exact hx z hz _ _ rfl

section
variable {lic : Lic F} {n m : Nat} {S : Env F → Prop} {A B C : SpSym → Prop}

/-- The converted expression is well formed and has the value of the SymPy expression. -/
def FromOk (S : Env F → Prop) (A : SpSym → Prop) (φ : SpEnv → Option ℂ) (r : Expr F) : Prop :=
  Good r ∧ Over NoOrderZero r ∧ ∀ ρ σ, S ρ → Calculus ρ → SameValuesOn A ρ σ → ∀ z, φ σ = some z → eval ρ r = some z

theorem FromOk.mono {φ ψ : SpEnv → Option ℂ} {r : Expr F} (h : FromOk S A φ r) (hψ : ∀ σ z, ψ σ = some z → φ σ = some z) : FromOk S A ψ r :=
  ⟨h.1, h.2.1, fun ρ σ hS hC hv z hz => h.2.2 ρ σ hS hC hv z (hψ σ z hz)⟩

theorem from_forall (hS : ∀ ρ, S ρ → lic.TrueAt ρ) {ss : List (Sp F)} {bs : List (Expr F)} (hf : List.Forall₂ (fun s b => FromOk S A (spEval none s) b) ss bs)
    {ρ : Env F} {σ : SpEnv} (h : S ρ) (hC : Calculus ρ) (hv : SameValuesOn A ρ σ) :
    List.Forall₂ (fun v b => FnOk lic ρ b v) (ss.map fun s => spEval none s σ) bs := by
  induction hf with
  | nil => exact .nil
  | cons h1 _ ih => exact .cons ⟨h1.1, fun _ z hz => h1.2.2 ρ σ h hC hv z hz⟩ ih

theorem from_goods {ss : List (Sp F)} {bs : List (Expr F)} (hf : List.Forall₂ (fun s b => FromOk S A (spEval none s) b) ss bs) :
    ∀ b ∈ bs, Good b ∧ Over NoOrderZero b := by
  induction hf with
  | nil => simp
  | cons h1 _ ih => simpa using ⟨⟨h1.1, h1.2.1⟩, ih⟩

/-- A node with the value of a node of the model. -/
theorem node_from (hS : ∀ ρ, S ρ → lic.TrueAt ρ) {ss : List (Sp F)} {bs : List (Expr F)} (hf : List.Forall₂ (fun s b => FromOk S A (spEval none s) b) ss bs)
    {h : Head F} (hi : h.interpreted = true) {r : Expr F} (hr : rebuild (ctors lic n) m h bs = .ok r) {φ : SpEnv → Option ℂ}
    (hx : ∀ σ z, φ σ = some z → ∀ (e : Expr F) (ρ' : Env F), ρ'.symfn = σ.fn → headVal ρ' e h (ss.map fun s => spEval none s σ) = some z) :
    FromOk S A φ r := by
  have hd : ∀ k, h ≠ .deriv k := by rintro k rfl; cases hi
  refine ⟨?_, ?_, fun ρ σ h1 hC hv z hz => ?_⟩
  · have hg : List.Forall₂ (fun v b => FnOk lic (⟨fun _ => none, fun _ _ => none, fun _ _ => none⟩ : Env F) b v) (bs.map fun _ => none) bs := by
      have := from_goods hf
      clear hf hr
      induction bs with
      | nil => exact .nil
      | cons b bs ih => exact .cons ⟨(this b (by simp)).1, fun _ z hz => by cases hz⟩ (ih fun x hx => this x (by simp [hx]))
    exact (rebuild_vals (x := none) (ctors_sound lic _ n) hi hg hr (fun z hz => by cases hz)).1
  · exact over_rebuild noOrderZero_basic (ctors_closed noOrderZero_basic lic n) (as := []) hi (noOrderZero_of hd) (fun b hb => (from_goods hf b hb).2) hr
  · have := rebuild_vals (x := φ σ) (ctors_sound lic ρ n) hi (from_forall hS hf h1 hC hv) hr (fun z hz e ρ' he => hx σ z hz e ρ' (he.trans hv.fn))
    exact this.2 (hS ρ h1) z hz

/-! ## Relations, maxima and the Heaviside function -/

theorem relCreate_from {op : RelOp} {a b r : Expr F} {φ ψ : SpEnv → Option ℂ} (ha : FromOk S A φ a) (hb : FromOk S A ψ b) (h : relCreate op a b = .ok r) :
    FromOk S A (fun σ => (φ σ).bind fun x => (ψ σ).bind fun y => relVal op x y) r := by
  refine ⟨(relCreate_ok ⟨fun _ => none, fun _ _ => none, fun _ _ => none⟩ ha.1 hb.1 h).1, over_relCreate noOrderZero_basic ha.2.1 hb.2.1 h, fun ρ σ h1 hC hv z hz => ?_⟩
  refine (relCreate_ok ρ ha.1 hb.1 h).2 z ?_
  unfold relO
  obtain ⟨x, hx, hz⟩ := Option.bind_eq_some_iff.1 hz
  obtain ⟨y, hy, hz⟩ := Option.bind_eq_some_iff.1 hz
  rw [ha.2.2 ρ σ h1 hC hv x hx, hb.2.2 ρ σ h1 hC hv y hy]; exact hz

theorem condCreate_from {c a b : Expr F} {φ ψ χ : SpEnv → Option ℂ} (hc : FromOk S A φ c) (ha : FromOk S A ψ a) (hb : FromOk S A χ b) :
    FromOk S A (fun σ => condO (φ σ) (ψ σ) (χ σ)) (condCreate c a b) :=
  ⟨condCreate_good hc.1 ha.1 hb.1, over_condCreate noOrderZero_basic hc.2.1 ha.2.1 hb.2.1, fun ρ σ h1 hC hv z hz =>
    condCreate_ok ρ c a b z (condO_carry (hc.2.2 ρ σ h1 hC hv) (ha.2.2 ρ σ h1 hC hv) (hb.2.2 ρ σ h1 hC hv) z hz)⟩

theorem int_from (k : Int) (hk : InI64 k) : FromOk S A (fun _ => some (k : ℂ)) (.int k : Expr F) :=
  ⟨good_int.2 hk, noOrderZero_basic.oint k, fun ρ _ _ _ _ z hz => by rw [eval_int]; exact hz⟩

theorem gt_from {a b r : Expr F} {φ ψ : SpEnv → Option ℂ} (ha : FromOk S A φ a) (hb : FromOk S A ψ b) {q : SpRel} (h : fromSympyRel q a b = .ok r) :
    FromOk S A (fun σ => (φ σ).bind fun x => (ψ σ).bind fun y => spRelVal q x y) r := by
  cases q with
  | lt => exact relCreate_from ha hb h
  | le => exact relCreate_from ha hb h
  | eq => exact relCreate_from ha hb h
  | gt =>
    refine (relCreate_from hb ha h).mono fun σ z hz => ?_
    obtain ⟨x, hx, hz⟩ := Option.bind_eq_some_iff.1 hz
    obtain ⟨y, hy, hz⟩ := Option.bind_eq_some_iff.1 hz
    rw [hx, hy, Option.bind_some, Option.bind_some, ← hz]
    simp only [relVal, spRelVal, and_comm]
  | ge =>
    refine (relCreate_from hb ha h).mono fun σ z hz => ?_
    obtain ⟨x, hx, hz⟩ := Option.bind_eq_some_iff.1 hz
    obtain ⟨y, hy, hz⟩ := Option.bind_eq_some_iff.1 hz
    rw [hx, hy, Option.bind_some, Option.bind_some, ← hz]
    simp only [relVal, spRelVal, and_comm]

theorem extremeO_two {pick : ℝ → ℝ → ℝ} {a b : Option ℂ} {z : ℂ} (h : extremeO pick [a, b] = some z) :
    ∃ x y : ℝ, a = some (x : ℂ) ∧ b = some (y : ℂ) ∧ z = ((pick x y : ℝ) : ℂ) := by
  cases a with
  | none => simp [extremeO, seqO] at h
  | some a =>
    cases b with
    | none => simp [extremeO, seqO] at h
    | some b =>
      simp only [extremeO, seqO, Option.bind_some, Option.map_some] at h
      split at h
      · rename_i hi
        have h1 := hi a (by simp)
        have h2 := hi b (by simp)
        cases h
        exact ⟨a.re, b.re, by rw [ofReal_re_eq h1], by rw [ofReal_re_eq h2], rfl⟩
      · cases h

theorem max_from {a b r : Expr F} {φ ψ : SpEnv → Option ℂ} (ha : FromOk S A φ a) (hb : FromOk S A ψ b) (h : maxFn a b = .ok r) :
    FromOk S A (fun σ => extremeO max [φ σ, ψ σ]) r := by
  refine ⟨?_, ?_, fun ρ σ h1 hC hv z hz => ?_⟩
  · unfold maxFn at h
    cases hc : relCreate .lt a b with
    | error e => simp [hc] at h
    | ok c => simp only [hc] at h; cases h; exact condCreate_good (relCreate_from ha hb hc).1 hb.1 ha.1
  · unfold maxFn at h
    cases hc : relCreate .lt a b with
    | error e => simp [hc] at h
    | ok c => simp only [hc] at h; cases h; exact over_condCreate noOrderZero_basic (relCreate_from ha hb hc).2.1 hb.2.1 ha.2.1
  · obtain ⟨x, y, hx, hy, rfl⟩ := extremeO_two hz
    exact C24_max a b r ha.1 hb.1 h ρ x y (ha.2.2 ρ σ h1 hC hv _ hx) (hb.2.2 ρ σ h1 hC hv _ hy)

theorem min_from {a b r : Expr F} {φ ψ : SpEnv → Option ℂ} (ha : FromOk S A φ a) (hb : FromOk S A ψ b) (h : minFn a b = .ok r) :
    FromOk S A (fun σ => extremeO min [φ σ, ψ σ]) r := by
  refine ⟨?_, ?_, fun ρ σ h1 hC hv z hz => ?_⟩
  · unfold minFn at h
    cases hc : relCreate .lt b a with
    | error e => simp [hc] at h
    | ok c => simp only [hc] at h; cases h; exact condCreate_good (relCreate_from hb ha hc).1 hb.1 ha.1
  · unfold minFn at h
    cases hc : relCreate .lt b a with
    | error e => simp [hc] at h
    | ok c => simp only [hc] at h; cases h; exact over_condCreate noOrderZero_basic (relCreate_from hb ha hc).2.1 hb.2.1 ha.2.1
  · obtain ⟨x, y, hx, hy, rfl⟩ := extremeO_two hz
    exact C24_min a b r ha.1 hb.1 h ρ x y (ha.2.2 ρ σ h1 hC hv _ hx) (hb.2.2 ρ σ h1 hC hv _ hy)

theorem heaviside_from {x y r : Expr F} {φ ψ : SpEnv → Option ℂ} (hx : FromOk S A φ x) (hy : FromOk S A ψ y) (h : fromHeaviside x y = .ok r) :
    FromOk S A (fun σ => heavisideO (φ σ) (ψ σ)) r := by
  unfold fromHeaviside at h
  obtain ⟨p, hp, h⟩ := andThen_ok h
  obtain ⟨q, hq, h⟩ := andThen_ok h
  cases h
  have h0 := int_from (F := F) (S := S) (A := A) 0 (by decide)
  have h1 := int_from (F := F) (S := S) (A := A) 1 (by decide)
  refine (condCreate_from (relCreate_from h0 hx hp) h1 (condCreate_from (relCreate_from hx h0 hq) h0 hy)).mono fun σ z hz => ?_
  obtain ⟨w, hw, hz⟩ := Option.bind_eq_some_iff.1 hz
  by_cases hi : w.im = 0
  · rw [if_pos hi] at hz
    simp only [hw, Option.bind_some, relVal, Int.cast_zero, Complex.zero_im, Complex.zero_re, hi, and_self, if_true]
    by_cases hp : 0 < w.re
    · rw [if_pos hp] at hz
      simpa [condO, hp] using hz
    · rw [if_neg hp] at hz
      by_cases hn : w.re < 0
      · rw [if_pos hn] at hz
        simpa [condO, hp, hn] using hz
      · rw [if_neg hn] at hz
        simpa [condO, hp, hn] using hz
  · rw [if_neg hi] at hz; cases hz

/-! ## Derivatives and substitutions -/

theorem SameValuesOn.set {ρ : Env F} {σ : SpEnv} (h : SameValuesOn A ρ σ) (hA : Apart A) {s : SpSym} (hs : A s) (z : ℂ) :
    SameValuesOn A (ρ.setVar (.node s.head []) z) (σ.set s z) where
  sym t ht := by
    by_cases he : t = s
    · subst he
      rw [setVar_self]
      show some z = if t = t then some z else σ.sym t
      rw [if_pos rfl]
    · rw [setVar_other, h.sym t ht]
      · show σ.sym t = if t = s then some z else σ.sym t
        rw [if_neg he]
      · intro hh
        simp only [SpSym.head, Head.var.injEq] at hh
        exact he (hA t s ht hs hh.1 hh.2)
  fn := h.fn

/-- A family of expressions of which each is the derivative of the one before. -/
theorem family_from (hB : Allows S B C) (hA : Apart A) {s : SpSym} (hs : A s) (hb : B s) {φ : SpEnv → Option ℂ} {D : Nat → Expr F}
    (h0 : ∀ ρ σ, S ρ → Calculus ρ → SameValuesOn A ρ σ → ∀ z, φ σ = some z → eval ρ (D 0) = some z)
    (hD : ∀ k (ρ : Env F), Calculus ρ → ∀ (t₀ : ℝ) (g : ℝ → ℂ) z, ρ.leaf s.head = some (t₀ : ℂ) →
      (∀ᶠ t : ℝ in 𝓝 t₀, eval (along ρ (.node s.head []) t) (D k) = some (g t)) → HasDerivAt g z t₀ → eval ρ (D (k + 1)) = some z) :
    ∀ k ρ σ, S ρ → Calculus ρ → SameValuesOn A ρ σ → ∀ z, spDeriv s k φ σ = some z → eval ρ (D k) = some z
  | 0 => h0
  | k + 1 => fun ρ σ hS hC hv z hz => by
    obtain ⟨t₀, g, h1, h2, h3⟩ := spDeriv_succ.1 hz
    rw [← hv.sym s hs] at h1
    refine hD k ρ hC t₀ g z h1 ?_ h3
    filter_upwards [h2, hB.near ρ s t₀ hS hb h1] with t ht hSt
    exact family_from hB hA hs hb h0 hD k _ _ hSt (hC.along _ t) (hv.set hA hs t) _ ht

theorem derivCreate_from (hB : Allows S B C) (hA : Apart A) {s : SpSym} (hs : A s) (hb : B s) {φ : SpEnv → Option ℂ} {e d : Expr F} {k : Nat}
    (he : FromOk S A φ e) (h : derivCreate e (.node s.head []) k = .ok d) : FromOk S A (spDeriv s k φ) d := by
  have hgood := good_derivCreate he.1 (good_varHead (show (s.head : Head F).isVar = true from rfl)) h
  have hvar : Over NoOrderZero (.node s.head [] : Expr F) := over_node.2 ⟨(fun n hn => by cases hn), by simp⟩
  unfold derivCreate at h
  by_cases hk : k = 0
  · rw [if_pos hk] at h; cases h
  · rw [if_neg hk] at h
    change derivCreate.derivNode e (.node s.head []) k = .ok d at h
    obtain ⟨j, rfl⟩ := Nat.exists_eq_succ_of_ne_zero hk
    have plain : d = .deriv e (.node s.head []) (j + 1) → FromOk S A (spDeriv s (j + 1) φ) d := by
      rintro rfl
      refine ⟨hgood, over_node.2 ⟨(fun n hn => by cases hn; omega), by simpa using ⟨he.2.1, hvar⟩⟩, ?_⟩
      refine family_from hB hA hs hb (D := fun k => match k with | 0 => e | k + 1 => .deriv e (.node s.head []) (k + 1)) he.2.2 (fun k ρ hC t₀ g z h1 h2 h3 => ?_) (j + 1)
      cases k with
      | zero =>
        show eval ρ (.deriv e (.node s.head []) 1) = some z
        rw [eval_opaq_deriv]
        exact (hC.deriv ρ.leaf e s.head z rfl).2 ⟨t₀, g, h1, h2, h3⟩
      | succ k =>
        show eval ρ (.deriv e (.node s.head []) (k + 2)) = some z
        rw [eval_opaq_deriv]
        exact (hC.higher ρ.leaf e s.head k z rfl).2 ⟨t₀, g, h1, h2, h3⟩
    unfold derivCreate.derivNode at h
    split at h
    · rename_i y f i
      split at h
      · rename_i hid
        obtain rfl := (identical_iff _ _).1 hid
        cases h
        obtain ⟨i, rfl⟩ := Nat.exists_eq_succ_of_ne_zero ((over_node.1 he.2.1).1 _ rfl)
        refine ⟨hgood, over_node.2 ⟨(fun n hn => by cases hn; omega), by simpa using ⟨(over_node.1 he.2.1).2 f (by simp), hvar⟩⟩, ?_⟩
        refine family_from hB hA hs hb (D := fun k => .deriv f (.node s.head []) (i + 1 + k)) he.2.2 (fun k ρ hC t₀ g z h1 h2 h3 => ?_) (j + 1)
        show eval ρ (.deriv f (.node s.head []) (i + 1 + (k + 1))) = some z
        rw [show i + 1 + (k + 1) = (i + k) + 2 by omega, eval_opaq_deriv]
        refine (hC.higher ρ.leaf f s.head (i + k) z rfl).2 ⟨t₀, g, h1, ?_, h3⟩
        rw [show i + k + 1 = i + 1 + k by omega]
        exact h2
      · exact plain (by cases h; rfl)
    · exact plain (by cases h; rfl)

theorem fromDerivative_ok (hB : Allows S B C) (hA : Apart A) : ∀ (l : List (SpSym × Nat)) {φ : SpEnv → Option ℂ} {e d : Expr F}, (∀ p ∈ l, A p.1 ∧ B p.1) →
    FromOk S A φ e → fromDerivative e (l.map fun p => (.node p.1.head [], p.2)) = .ok d → FromOk S A (spDerivs l φ) d
  | [], φ, e, d, _, he, h => by cases h; exact he
  | (s, k) :: l, φ, e, d, hl, he, h => by
    simp only [List.map_cons, fromDerivative] at h
    obtain ⟨d', h1, h⟩ := andThen_ok h
    have := hl (s, k) (by simp)
    exact fromDerivative_ok hB hA l (fun p hp => hl p (by simp [hp])) (derivCreate_from hB hA this.1 this.2 he h1) h

theorem over_substCreate {e t r d : Expr F} (he : Over NoOrderZero e) (ht : Over NoOrderZero t) (hr : Over NoOrderZero r) (h : substCreate e t r = .ok d) :
    Over NoOrderZero d := by
  unfold substCreate at h
  split at h
  · cases h; exact he
  · split at h
    · cases h
    · split at h
      · cases h; exact he
      · cases h; exact over_node.2 ⟨(fun n hn => by cases hn), by simpa using ⟨he, ht, hr⟩⟩

theorem substCreate_from (hB : Allows S B C) (hA : Apart A) {s : SpSym} (hs : A s) (hc : C s) {φ ψ : SpEnv → Option ℂ} {e p d : Expr F}
    (he : FromOk S A φ e) (hp : FromOk S A ψ p) (h : substCreate e (.node s.head []) p = .ok d) : FromOk S A (fun σ => (ψ σ).bind fun z => φ (σ.set s z)) d := by
  have hvar : Over NoOrderZero (.node s.head [] : Expr F) := over_node.2 ⟨(fun n hn => by cases hn), by simp⟩
  refine ⟨good_substCreate he.1 (good_varHead rfl) hp.1 h, over_substCreate he.2.1 hvar hp.2.1 h, fun ρ σ h1 hC hv z hz => ?_⟩
  obtain ⟨w, hw, hz⟩ := Option.bind_eq_some_iff.1 hz
  exact substCreate_val hC rfl (hp.2.2 ρ σ h1 hC hv w hw) (he.2.2 _ _ (hB.all ρ s w h1 hc) (hC.setVar _ w) (hv.set hA hs w) z hz) h

/-! ## Nodes -/

theorem fromSympys_forall {K : Ctors F} : ∀ {ss : List (Sp F)} {bs : List (Expr F)}, fromSympys K m ss = .ok bs → List.Forall₂ (fun s b => fromSympy K m s = .ok b) ss bs
  | [], bs, h => by rw [fromSympys] at h; cases h; exact .nil
  | s :: ss, bs, h => by
    rw [fromSympys] at h
    obtain ⟨b, h1, h⟩ := andThen_ok h
    obtain ⟨cs, h2, h⟩ := andThen_ok h
    cases h
    exact .cons h1 (fromSympys_forall h2)

theorem spOvers_iff : ∀ {as : List (Sp F)}, SpOvers A B C as ↔ ∀ a ∈ as, SpOver A B C a
  | [] => by simp [SpOvers]
  | a :: as => by rw [SpOvers, spOvers_iff]; simp

theorem fromSympySymbol_head {s : SpSym} {r : Expr F} (h : fromSympySymbol s = .ok r) : r = .node s.head [] := by
  unfold fromSympySymbol at h
  split at h
  · cases h
  · cases h; rfl

theorem const_from {φ : SpEnv → Option ℂ} {r : Expr F} (hg : Good r) (ho : Over NoOrderZero r) (hv : ∀ (ρ : Env F) σ z, φ σ = some z → eval ρ r = some z) : FromOk S A φ r :=
  ⟨hg, ho, fun ρ σ _ _ _ z hz => hv ρ σ z hz⟩

theorem none_from {φ : SpEnv → Option ℂ} {r : Expr F} (hg : Good r) (ho : Over NoOrderZero r) (hv : ∀ σ, φ σ = none) : FromOk S A φ r :=
  const_from hg ho fun _ σ z hz => by rw [hv] at hz; cases hz

theorem symbols_converted {xs : List SpSym} {bs : List (Expr F)} {K : Ctors F} (h : List.Forall₂ (fun s b => fromSympy K m s = .ok b) (symbolArgs xs) bs) :
    bs = xs.map fun x => .node x.head [] := by
  induction xs generalizing bs with
  | nil => cases h; rfl
  | cons x xs ih =>
    obtain _ | ⟨h1, h2⟩ := h
    rw [fromSympy, fromSympys] at h1
    · rw [fromSympySymbol_head h1, ih h2]; rfl
    · intro h; cases h

theorem symsOf_symbolArgs : ∀ xs : List SpSym, symsOf (symbolArgs xs : List (Sp F)) = some xs
  | [] => rfl
  | x :: xs => by
    show (symsOf (symbolArgs xs : List (Sp F))).map (x :: ·) = some (x :: xs)
    rw [symsOf_symbolArgs]; rfl

/-- `rational` makes the quotient. -/
theorem fromRational_ok {p q : Int} {r : Expr F} (h : fromRational p q = .ok r) : Good r ∧ Over NoOrderZero r ∧ ∀ ρ : Env F, eval ρ r = some (((p : ℚ) / (q : ℚ) : ℚ) : ℂ) := by
  unfold fromRational at h
  by_cases hpq : InI64 p ∧ InI64 q
  · rw [if_pos hpq] at h
    by_cases hq : q = 0
    · rw [if_pos hq] at h; cases h
    · rw [if_neg hq] at h
      obtain ⟨c, h1, h⟩ := andThen_ok h
      obtain ⟨hc, hv⟩ := ratMk_ok hpq.1 hpq.2 hq h1
      obtain ⟨_, h3, h4, _⟩ := ratExpr_ok (F := F) hc h
      refine ⟨h3, over_ratExpr noOrderZero_basic h, fun ρ => ?_⟩
      rw [h4, hv]
  · rw [if_neg hpq] at h; cases h

/-- The conversion of a node that is not a `Piecewise`. -/
theorem fromSympyNode_ok (hS : ∀ ρ, S ρ → lic.TrueAt ρ) (hB : Allows S B C) (hA : Apart A) {h : SpHead F} {ss : List (Sp F)} {bs : List (Expr F)} {r : Expr F}
    (ho : SpOver A B C (.node h ss)) (hc : List.Forall₂ (fun s b => fromSympy (ctors lic n) m s = .ok b) ss bs)
    (hf : List.Forall₂ (fun s b => FromOk S A (spEval none s) b) ss bs) (hr : fromSympyNode (ctors lic n) m h bs = .ok r) :
    FromOk S A (spEval none (.node h ss)) r := by
  have val : (∀ ns, h ≠ .deriv ns) → (∀ n, h ≠ .subs n) → FromOk S A (fun σ => spVal none σ h (ss.map fun a => spEval none a σ)) r → FromOk S A (spEval none (.node h ss)) r :=
    fun h1 h2 hx => hx.mono fun σ z hz => by rwa [spEval_val none h1 h2] at hz
  have leaf : (∀ ns, h ≠ .deriv ns) → (∀ n, h ≠ .subs n) → Good r → Over NoOrderZero r → (∀ (ρ : Env F) σ z, spVal none σ h (ss.map fun a => spEval none a σ) = some z → eval ρ r = some z) →
      FromOk S A (spEval none (.node h ss)) r := fun h1 h2 h3 h4 h5 => val h1 h2 (const_from h3 h4 h5)
  cases h with
  | add => exact val (by simp) (by simp) (node_from (m := m) (h := .add) hS hf rfl hr fun σ z hz e ρ' _ => hz)
  | mul => exact val (by simp) (by simp) (node_from (m := m) (h := .mul) hS hf rfl hr fun σ z hz e ρ' _ => hz)
  | pow =>
    refine val (by simp) (by simp) (node_from (h := .pow) hS hf rfl hr fun σ z hz e ρ' _ => ?_)
    generalize (ss.map fun s => spEval none s σ) = vs at hz
    rcases vs with _ | ⟨a, _ | ⟨b, _ | ⟨c, vs⟩⟩⟩
    · cases hz
    · cases hz
    · change (a.bind fun z => b.bind fun w => spPow none z w) = some z at hz
      obtain ⟨x, rfl, hz1⟩ := Option.bind_eq_some_iff.1 hz
      obtain ⟨y, rfl, hz2⟩ := Option.bind_eq_some_iff.1 hz1
      clear hz hz1
      have hz := hz2
      show powVal x y = some z
      unfold spPow at hz
      split at hz
      · cases hz
      · exact hz
    · cases hz
  | fn f =>
    refine val (by simp) (by simp) (node_from (h := .fn (fromSympyFn f)) hS hf rfl hr fun σ z hz e ρ' _ => ?_)
    have : fromSympyFn f = f.meaning := by cases f <;> rfl
    rw [this]; exact hz
  | max =>
    rcases bs with _ | ⟨a, _ | ⟨b, _ | ⟨c, bs⟩⟩⟩
    · cases hr
    · cases hr
    · rcases hf with _ | ⟨ha, _ | ⟨hb, ⟨_⟩⟩⟩
      exact val (by simp) (by simp) (max_from ha hb hr)
    · cases hr
  | min =>
    rcases bs with _ | ⟨a, _ | ⟨b, _ | ⟨c, bs⟩⟩⟩
    · cases hr
    · cases hr
    · rcases hf with _ | ⟨ha, _ | ⟨hb, ⟨_⟩⟩⟩
      exact val (by simp) (by simp) (min_from ha hb hr)
    · cases hr
  | piecewise => cases bs <;> cases hr
  | deriv ns =>
    rw [SpOver] at ho
    obtain ⟨⟨f, xs, rfl, hl, hx⟩, _⟩ := ho
    rcases bs with _ | ⟨e, bs⟩
    · cases hf
    obtain _ | ⟨hf1, hf2⟩ := hf
    obtain _ | ⟨_, hc2⟩ := hc
    obtain rfl := symbols_converted hc2
    change fromDerivative e ((xs.map fun x => .node x.head []).zip ns) = .ok r at hr
    have : (xs.map fun x => (.node x.head [] : Expr F)).zip ns = (xs.zip ns).map fun p => (.node p.1.head [], p.2) := by
      rw [List.zip_map_left]
      rfl
    rw [this] at hr
    refine (fromDerivative_ok hB hA (xs.zip ns) (fun p hp => hx p.1 (List.of_mem_zip hp).1) hf1 hr).mono fun σ z hz => ?_
    rw [spEval_node] at hz
    change spDerivNode ns (f :: symbolArgs xs) (spEval none f :: (symbolArgs xs).map (spEval none)) σ = some z at hz
    unfold spDerivNode at hz
    rw [List.tail_cons, symsOf_symbolArgs] at hz
    change (if xs.length = ns.length then spDerivs (xs.zip ns) (spEval none f) σ else none) = some z at hz
    rwa [if_pos hl] at hz
  | subs k =>
    rw [SpOver] at ho
    obtain ⟨⟨rfl, e, x, p, rfl, hx1, hx2⟩, _⟩ := ho
    obtain ⟨e', x', p', rfl, he, _, hp⟩ := forall₂_three hf
    obtain ⟨_, _, _, hbs, _, hx, _⟩ := forall₂_three hc
    simp only [List.cons.injEq, and_true] at hbs
    obtain ⟨rfl, rfl, rfl⟩ := hbs
    have hx' : x' = .node x.head [] := by
      rw [fromSympy, fromSympys] at hx
      · exact fromSympySymbol_head hx
      · intro h; cases h
    subst hx'
    change fromSubs e' [(.node x.head [], p')] = .ok r at hr
    unfold fromSubs at hr
    obtain ⟨d, hd, hr⟩ := andThen_ok hr
    cases hr
    refine (substCreate_from hB hA hx1 hx2 he hp hd).mono fun σ z hz => ?_
    rw [spEval_node] at hz
    change spSubsNode 1 [e, .node (.symbol x) [], p] [spEval none e, spEval none (.node (.symbol x) []), spEval none p] σ = some z at hz
    unfold spSubsNode at hz
    change (match [spEval none e, spEval none (.node (.symbol x) []), spEval none p], some [x], seqO [spEval none p σ] with
      | f :: _, some xs, some zs => if xs.length = 1 ∧ zs.length = 1 then f (σ.setAll (xs.zip zs)) else none
      | _, _, _ => none) = some z at hz
    cases hw : spEval none p σ with
    | none => simp [hw, seqO] at hz
    | some w =>
      rw [hw] at hz
      exact hz
  | flt f =>
    cases hr
    refine leaf (by simp) (by simp) (floatExpr_good f) ?_ fun ρ σ z hz => ?_
    · unfold floatExpr
      split
      · exact noOrderZero_basic.oundef
      · split
        · exact noOrderZero_basic.ozoo
        · exact noOrderZero_basic.oflt f
    · rcases ss with _ | ⟨s, ss⟩
      · obtain ⟨x, hx, rfl⟩ := Option.map_eq_some_iff.1 hz
        exact floatExpr_val hx ρ
      · cases hz
  | integer k =>
    change (if InI64 k then _ else _) = _ at hr
    split at hr
    · rename_i hk
      cases hr
      refine leaf (by simp) (by simp) (good_int.2 hk) (noOrderZero_basic.oint k) fun ρ σ z hz => ?_
      rcases ss with _ | ⟨s, ss⟩
      · rw [eval_int]; exact hz
      · cases hz
    · cases hr
  | rational p q =>
    obtain ⟨h1, h2, h3⟩ := fromRational_ok (F := F) hr
    refine leaf (by simp) (by simp) h1 h2 fun ρ σ z hz => ?_
    rcases ss with _ | ⟨s, ss⟩
    · rw [h3]; exact hz
    · cases hz
  | I =>
    cases hr
    refine leaf (by simp) (by simp) good_imag noOrderZero_basic.oimag fun ρ σ z hz => ?_
    rcases ss with _ | ⟨s, ss⟩
    · rw [eval]; exact hz
    · cases hz
  | E =>
    cases hr
    refine leaf (by simp) (by simp) (good_node.2 ⟨trivial, by simp⟩) (noOrderZero_basic.oconst _) fun ρ σ z hz => ?_
    rcases ss with _ | ⟨s, ss⟩
    · rw [eval]; exact hz
    · cases hz
  | pi =>
    cases hr
    refine leaf (by simp) (by simp) (good_node.2 ⟨trivial, by simp⟩) (noOrderZero_basic.oconst _) fun ρ σ z hz => ?_
    rcases ss with _ | ⟨s, ss⟩
    · rw [eval]; exact hz
    · cases hz
  | zoo =>
    cases hr
    refine leaf (by simp) (by simp) good_zoo noOrderZero_basic.ozoo fun ρ σ z hz => ?_
    rcases ss with _ | ⟨s, ss⟩ <;> cases hz
  | nan =>
    cases hr
    refine leaf (by simp) (by simp) good_undef noOrderZero_basic.oundef fun ρ σ z hz => ?_
    rcases ss with _ | ⟨s, ss⟩ <;> cases hz
  | true =>
    cases hr
    refine leaf (by simp) (by simp) (good_node.2 ⟨trivial, by simp⟩) (noOrderZero_basic.obconst _) fun ρ σ z hz => ?_
    rcases ss with _ | ⟨s, ss⟩
    · rw [eval_bconst]; exact hz
    · cases hz
  | false =>
    cases hr
    refine leaf (by simp) (by simp) (good_node.2 ⟨trivial, by simp⟩) (noOrderZero_basic.obconst _) fun ρ σ z hz => ?_
    rcases ss with _ | ⟨s, ss⟩
    · rw [eval_bconst]; exact hz
    · cases hz
  | rel q =>
    rcases bs with _ | ⟨a, _ | ⟨b, _ | ⟨c, bs⟩⟩⟩
    · cases hr
    · cases hr
    · rcases hf with _ | ⟨ha, _ | ⟨hb, ⟨_⟩⟩⟩
      exact val (by simp) (by simp) (gt_from ha hb hr)
    · cases hr
  | heaviside =>
    rcases bs with _ | ⟨a, _ | ⟨b, _ | ⟨c, bs⟩⟩⟩
    · cases hr
    · cases hr
    · rcases hf with _ | ⟨ha, _ | ⟨hb, ⟨_⟩⟩⟩
      exact val (by simp) (by simp) (heaviside_from ha hb hr)
    · cases hr
  | symbol s =>
    rw [SpOver] at ho
    obtain ⟨⟨hs, rfl⟩, _⟩ := ho
    obtain rfl := fromSympySymbol_head (F := F) (s := s) hr
    refine val (by simp) (by simp) ⟨good_varHead rfl, over_node.2 ⟨(fun n hn => by cases hn), by simp⟩, fun ρ σ _ _ hv z hz => ?_⟩
    rw [eval]
    show ρ.leaf s.head = some z
    rw [hv.sym s hs]; exact hz
  | applied nm assumed =>
    change (if assumed = true then _ else _) = _ at hr
    split at hr
    · cases hr
    · refine val (by simp) (by simp) (node_from (n := n) (m := m) (h := .symfn nm) hS hf rfl hr fun σ z hz e ρ' he => ?_)
      show (seqO _).bind (ρ'.symfn nm) = some z
      rw [he]; exact hz
  | unevaluated =>
    rcases bs with _ | ⟨a, _ | ⟨b, bs⟩⟩
    · cases hr
    · rcases hf with _ | ⟨ha, ⟨_⟩⟩
      refine val (by simp) (by simp) (node_from (n := n) (m := m) (h := .uneval) hS (.cons ha .nil) rfl hr fun σ z hz e ρ' he => hz)
    · cases hr

/-! ## Piecewise -/

theorem fromPieces_ok {K : Ctors F} : ∀ {ss : List (Sp F)} {r : Expr F}, (∀ s ∈ ss, ∀ b, fromSympy K m s = .ok b → FromOk S A (spEval none s) b) →
    fromPieces K m ss = .ok r → FromOk S A (fun σ => pieceO (ss.map fun s => spEval none s σ)) r
  | [], r, _, h => by rw [fromPieces] at h <;> first | cases h | (intros; rintro ⟨⟩)
  | [v], r, _, h => by rw [fromPieces] at h <;> first | cases h | (intros; rintro ⟨⟩)
  | [v, c], r, hs, h => by
    rw [fromPieces] at h
    refine (hs v (by simp) r h).mono fun σ z hz => ?_
    change condO (spEval none c σ) (spEval none v σ) none = some z at hz
    unfold condO at hz
    obtain ⟨w, _, hz⟩ := Option.bind_eq_some_iff.1 hz
    split at hz
    · exact hz
    · split at hz <;> cases hz
  | v :: c :: w :: rest, r, hs, h => by
    rw [fromPieces] at h
    · obtain ⟨out, h1, h⟩ := andThen_ok h
      obtain ⟨c', h2, h⟩ := andThen_ok h
      obtain ⟨v', h3, h⟩ := andThen_ok h
      cases h
      have ho := fromPieces_ok (ss := w :: rest) (fun s hm => hs s (by simp at hm ⊢; tauto)) h1
      exact condCreate_from (hs c (by simp) c' h2) (hs v (by simp) v' h3) ho
    · intro h; cases h

omit [DecidableEq F] [FnSem F] in
theorem isIversonPiece_eq {ss : List (Sp F)} (h : isIversonPiece ss = true) : ∃ c d, ss = [.node (.integer 1) [], c, .node (.integer 0) [], d] := by
  unfold isIversonPiece at h
  split at h
  · rename_i a c b d
    simp only [Bool.and_eq_true, beq_iff_eq] at h
    obtain ⟨rfl, rfl⟩ := h
    exact ⟨_, _, rfl⟩
  · cases h

theorem fromSympy_ok (hS : ∀ ρ, S ρ → lic.TrueAt ρ) (hB : Allows S B C) (hA : Apart A) : ∀ (s : Sp F) (r : Expr F), SpOver A B C s →
    fromSympy (ctors lic n) m s = .ok r → FromOk S A (spEval none s) r
  | .node h ss, r, ho, hr => by
    have hm : ∀ s ∈ ss, SpOver A B C s := by
      rw [SpOver] at ho
      exact spOvers_iff.1 ho.2
    have hrec : ∀ s ∈ ss, ∀ b, fromSympy (ctors lic n) m s = .ok b → FromOk S A (spEval none s) b := fun s hs b hb => fromSympy_ok hS hB hA s b (hm s hs) hb
    by_cases hp : h = .piecewise
    · subst hp
      have val : FromOk S A (fun σ => pieceO (ss.map fun a => spEval none a σ)) r → FromOk S A (spEval none (.node .piecewise ss)) r :=
        fun hx => hx.mono fun σ z hz => by rwa [spEval_val none (by simp) (by simp)] at hz
      rw [fromSympy] at hr
      split at hr
      · rename_i hi
        obtain ⟨c', h1, hr⟩ := andThen_ok hr
        cases hr
        obtain ⟨c, d, rfl⟩ := isIversonPiece_eq hi
        · rw [fromSecond] at h1
          have hc := hrec c (by simp) c' h1
          refine val ⟨good_iversonFn hc.1, over_iversonFn noOrderZero_basic hc.2.1, fun ρ σ h2 hC hv z hz => ?_⟩
          rw [eval_iversonFn]
          refine hc.2.2 ρ σ h2 hC hv z ?_
          change condO (spEval none c σ) (spEval none (.node (.integer 1) []) σ) (condO (spEval none d σ) (spEval none (.node (.integer 0) []) σ) none) = some z at hz
          rw [spEval_val none (by simp) (by simp), spEval_val none (by simp) (by simp)] at hz
          change condO (spEval none c σ) (some ((1 : ℤ) : ℂ)) (condO (spEval none d σ) (some ((0 : ℤ) : ℂ)) none) = some z at hz
          unfold condO at hz
          obtain ⟨x, hx, hz⟩ := Option.bind_eq_some_iff.1 hz
          rw [hx]
          split at hz
          · rename_i h3; rw [h3]; simpa using hz
          · split at hz
            · rename_i h3
              obtain ⟨y, _, hz⟩ := Option.bind_eq_some_iff.1 hz
              rw [h3]
              split at hz
              · simpa using hz
              · split at hz <;> cases hz
            · cases hz
      · exact val (fromPieces_ok hrec hr)
    · rw [fromSympy] at hr
      · obtain ⟨bs, h1, hr⟩ := andThen_ok hr
        have hc := fromSympys_forall h1
        exact fromSympyNode_ok hS hB hA ho hc (forall₂_carry hc fun s hs b hb => hrec s hs b hb) hr
      · exact hp

end
end Wf.Sym
