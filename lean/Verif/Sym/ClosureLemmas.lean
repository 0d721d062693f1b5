import Verif.Sym.RebuildLemmas

/-!
# Which kinds of node the constructors and functions can make

`Over P e` says that every node of `e` satisfies `P`. If `P` holds of the numbers, the constants and the interpreted operations, then every
constructor and function makes expressions over `P` from expressions over `P`: no variable, user-declared function or uninterpreted node is
invented.
-/

namespace Wf.Sym

variable {F : Type} [DecidableEq F]

mutual
/-- Every node of the expression satisfies `P`. -/
def Over (P : Head F → List (Expr F) → Prop) : Expr F → Prop
  | .node h as => P h as ∧ Overs P as
/-- Every node of the expressions satisfies `P`. -/
def Overs (P : Head F → List (Expr F) → Prop) : List (Expr F) → Prop
  | [] => True
  | a :: as => Over P a ∧ Overs P as
end

theorem overs_iff {P : Head F → List (Expr F) → Prop} {as : List (Expr F)} : Overs P as ↔ ∀ a ∈ as, Over P a := by
  induction as with
  | nil => simp [Overs]
  | cons a as ih => simp [Overs, ih]

theorem over_node {P : Head F → List (Expr F) → Prop} {h : Head F} {as : List (Expr F)} : Over P (.node h as) ↔ P h as ∧ ∀ a ∈ as, Over P a := by
  rw [Over, overs_iff]

theorem over_mono {P Q : Head F → List (Expr F) → Prop} (hPQ : ∀ h as, P h as → Q h as) : ∀ {e : Expr F}, Over P e → Over Q e
  | .node h as => fun ho => over_node.2 ⟨hPQ h as (over_node.1 ho).1, fun a ha => over_mono hPQ ((over_node.1 ho).2 a ha)⟩

/-- `P` holds of the nodes the constructors and functions make by themselves. They make no product with a factor zero. -/
structure Basic (P : Head F → List (Expr F) → Prop) : Prop where
  int : ∀ n, P (.int n) []
  rat : ∀ r, P (.rat r) []
  flt : ∀ f, P (.flt f) []
  const : ∀ c, P (.const c) []
  zoo : P .zoo []
  undef : P .undef []
  imag : P .imag []
  mul : ∀ ts, (∀ t ∈ ts, t ≠ .int 0) → P .mul ts
  mulSub : ∀ ts us, P .mul ts → (∀ u ∈ us, u ∈ ts) → P .mul us
  add : ∀ as, P .add as
  pow : ∀ as, P .pow as
  fn : ∀ f as, P (.fn f) as
  rel : ∀ op as, P (.rel op) as
  cond : ∀ as, P .cond as
  iverson : ∀ as, P .iverson as
  bconst : ∀ b, P (.bconst b) []
  uneval : ∀ as, P .uneval as
  stop : ∀ as, P .stop as
  symfn : ∀ n as bs, P (.symfn n) as → P (.symfn n) bs

section
variable [FloatSem F] {P : Head F → List (Expr F) → Prop}

theorem Basic.oint (hP : Basic P) (n : Int) : Over P (.int n : Expr F) := over_node.2 ⟨hP.int n, by simp⟩
theorem Basic.orat (hP : Basic P) (r : RatC) : Over P (.rat r : Expr F) := over_node.2 ⟨hP.rat r, by simp⟩
theorem Basic.oflt (hP : Basic P) (f : F) : Over P (.flt f : Expr F) := over_node.2 ⟨hP.flt f, by simp⟩
theorem Basic.oconst (hP : Basic P) (c : SymConst) : Over P (.const c : Expr F) := over_node.2 ⟨hP.const c, by simp⟩
theorem Basic.ozoo (hP : Basic P) : Over P (.zoo : Expr F) := over_node.2 ⟨hP.zoo, by simp⟩
theorem Basic.oundef (hP : Basic P) : Over P (.undef : Expr F) := over_node.2 ⟨hP.undef, by simp⟩
theorem Basic.oimag (hP : Basic P) : Over P (.imag : Expr F) := over_node.2 ⟨hP.imag, by simp⟩
theorem Basic.obconst (hP : Basic P) (b : Bool) : Over P (.bconst b : Expr F) := over_node.2 ⟨hP.bconst b, by simp⟩
theorem Basic.omul (hP : Basic P) {ts : List (Expr F)} (hn : ∀ t ∈ ts, t ≠ .int 0) (h : ∀ t ∈ ts, Over P t) : Over P (.mul ts) := over_node.2 ⟨hP.mul ts hn, h⟩
omit [FloatSem F] in
theorem over_factors {ts : List (Expr F)} (h : Over P (.mul ts)) : ∀ t ∈ ts, Over P t := (over_node.1 h).2
theorem Basic.oadd (hP : Basic P) {ts : List (Expr F)} : Over P (.add ts) ↔ ∀ t ∈ ts, Over P t := by rw [over_node]; simp [hP.add]
theorem Basic.opow (hP : Basic P) {a b : Expr F} : Over P (.pow a b) ↔ Over P a ∧ Over P b := by rw [over_node]; simp [hP.pow]
theorem Basic.ofn (hP : Basic P) {f : BuiltIn} {ts : List (Expr F)} : Over P (.fn f ts) ↔ ∀ t ∈ ts, Over P t := by rw [over_node]; simp [hP.fn]

/-- The constructors make expressions over `P` from expressions over `P`. -/
structure Closed (P : Head F → List (Expr F) → Prop) (K : Ctors F) : Prop where
  add : ∀ ts r, (∀ t ∈ ts, Over P t) → K.add ts = .ok r → Over P r
  mul : ∀ ts r, (∀ t ∈ ts, Over P t) → K.mul ts = .ok r → Over P r
  pow : ∀ b e r, Over P b → Over P e → K.pow b e = .ok r → Over P r
  visit : ∀ p t q, (∀ be ∈ p.terms, Over P be.1 ∧ Over P be.2) → Over P t → K.visit p t = .ok q → ∀ be ∈ q.terms, Over P be.1 ∧ Over P be.2

/-! ## Pieces -/

theorem over_ratExpr (hP : Basic P) {r : RatC} {e : Expr F} (h : ratExpr r = .ok e) : Over P e := by
  unfold ratExpr at h
  split at h
  · cases h
  · cases h; exact hP.oint _
  · cases h; exact hP.orat _

theorem over_floatExpr (hP : Basic P) (f : F) : Over P (floatExpr f) := by
  unfold floatExpr
  split
  · exact hP.oundef
  · split
    · exact hP.ozoo
    · exact hP.oflt f

theorem over_toExpr (hP : Basic P) {c : Coeff F} {e : Expr F} (h : c.toExpr = .ok e) : Over P e := by
  cases c with
  | int n => cases h; exact hP.oint n
  | rat r => exact over_ratExpr hP h
  | flt f => cases h; exact over_floatExpr hP f
  | undef => cases h; exact hP.oundef
  | zoo => cases h; exact hP.ozoo

theorem over_sorted (hP : Basic P) {ts : List (Expr F)} : (∀ t ∈ sortTerms ts, Over P t) ↔ ∀ t ∈ ts, Over P t := by
  constructor
  · exact fun h t ht => h t ((sortTerms_perm ts).mem_iff.2 ht)
  · exact fun h t ht => h t ((sortTerms_perm ts).mem_iff.1 ht)

theorem ne_zero_of_not_numeric {e : Expr F} (h : isNumeric e = false) : e ≠ .int 0 := by rintro rfl; simp [isNumeric] at h

theorem over_newMul2 (hP : Basic P) {a b : Expr F} (ha : Over P a) (hb : Over P b) (ha0 : a ≠ .int 0) (hb0 : b ≠ .int 0) : Over P (newMul2 a b) := by
  unfold newMul2
  refine hP.omul (fun t ht => ?_) ((over_sorted hP).2 (by simpa using ⟨ha, hb⟩))
  have := (sortTerms_perm _).mem_iff.1 ht
  simp only [List.mem_cons, List.not_mem_nil, or_false] at this
  rcases this with rfl | rfl
  · exact ha0
  · exact hb0

theorem over_maybeNewMul (hP : Basic P) {ts : List (Expr F)} (hn : P .mul ts) (h : ∀ t ∈ ts, Over P t) : Over P (maybeNewMul ts) := by
  rcases ts with _ | ⟨a, _ | ⟨b, ts⟩⟩
  · exact hP.oint 1
  · exact h a (by simp)
  · rw [show maybeNewMul (a :: b :: ts) = .mul (sortTerms (a :: b :: ts)) from rfl]
    exact over_node.2 ⟨hP.mulSub _ _ hn fun t ht => (sortTerms_perm _).mem_iff.1 ht, (over_sorted hP).2 h⟩

theorem over_splitMul (hP : Basic P) {ts : List (Expr F)} (h : Over P (.mul ts)) : Over P (splitMul ts).1 ∧ Over P (splitMul ts).2 := by
  unfold splitMul
  have hm := (over_node.1 h).1
  have h2 := over_factors h
  split
  · exact ⟨hP.oint 1, h⟩
  · exact ⟨over_maybeNewMul hP (hP.mulSub _ _ hm fun t ht => (List.mem_filter.1 ht).1) fun t ht => h2 t (List.mem_filter.1 ht).1,
      over_maybeNewMul hP (hP.mulSub _ _ hm fun t ht => (List.mem_filter.1 ht).1) fun t ht => h2 t (List.mem_filter.1 ht).1⟩

theorem over_asCoeffMul (hP : Basic P) {e : Expr F} (h : Over P e) : Over P (asCoeffMul e).1 ∧ Over P (asCoeffMul e).2 := by
  unfold asCoeffMul
  split
  · exact ⟨h, hP.oint 1⟩
  · exact ⟨h, hP.oint 1⟩
  · exact ⟨h, hP.oint 1⟩
  · rename_i a b
    have h2 := over_factors h
    split_ifs
    · exact ⟨h2 _ (by simp), h2 _ (by simp)⟩
    · exact ⟨h2 _ (by simp), h2 _ (by simp)⟩
    · exact over_splitMul hP h
  · exact over_splitMul hP h
  · exact ⟨hP.oint 1, h⟩

omit [FloatSem F] in
theorem maybeNewMul_ne_zero [FloatOps F] {ts : List (Expr F)} (h : ∀ t ∈ ts, isNumeric t = false) : maybeNewMul ts ≠ .int 0 := by
  rcases ts with _ | ⟨a, _ | ⟨b, ts⟩⟩
  · simp [maybeNewMul]
  · intro h0
    have := h a (by simp)
    rw [show a = .int 0 from h0] at this
    simp [isNumeric] at this
  · simp [maybeNewMul]

omit [FloatSem F] in
theorem asCoeffMul_ne_zero [FloatOps F] (e : Expr F) : (asCoeffMul e).2 ≠ .int 0 := by
  have hs : ∀ ts : List (Expr F), (splitMul ts).2 ≠ .int 0 := by
    intro ts
    unfold splitMul
    split
    · simp
    · exact maybeNewMul_ne_zero fun t ht => by simpa using (List.mem_filter.1 ht).2
  unfold asCoeffMul
  split
  · simp
  · simp
  · simp
  · rename_i a b
    split_ifs with h1 h2
    · rintro rfl; simp [isNumeric] at h1
    · rintro rfl; simp [isNumeric] at h2
    · exact hs _
  · exact hs _
  · rename_i e h1 _ _ _ _
    intro h0
    exact h1 0 h0

theorem over_mapRes {α : Type} {f : α → Res (Expr F)} {as : List α} {bs : List (Expr F)} (h : mapRes f as = .ok bs)
    (hf : ∀ a ∈ as, ∀ b, f a = .ok b → Over P b) : ∀ b ∈ bs, Over P b := by
  induction as generalizing bs with
  | nil => cases h; simp
  | cons a as ih =>
    unfold mapRes at h
    cases ha : f a with
    | error e => simp [ha] at h
    | ok b =>
      cases hm : mapRes f as with
      | error e => simp [ha, hm] at h
      | ok cs =>
        simp only [ha, hm, Except.ok.injEq] at h
        subst h
        intro x hx
        rcases List.mem_cons.1 hx with rfl | hx
        · exact hf a (by simp) _ ha
        · exact ih hm (fun y hy => hf y (by simp [hy])) x hx

/-- The entries of a container are over `P`. -/
abbrev OverT (P : Head F → List (Expr F) → Prop) (l : List (Expr F × Expr F)) : Prop := ∀ be ∈ l, Over P be.1 ∧ Over P be.2

theorem overT_find {k v : Expr F} {l : List (Expr F × Expr F)} (hl : OverT P l) (h : findKey k l = some v) :
    Over P v ∧ OverT P (eraseKey k l) ∧ ∀ w, Over P w → OverT P (setKey k w l) := by
  obtain ⟨l1, l2, rfl, h2, h3⟩ := findKey_split h
  refine ⟨(hl (k, v) (by simp)).2, ?_, fun w hw => ?_⟩
  · rw [h3]
    intro be hbe
    exact hl be (by simp only [List.mem_append, List.mem_cons] at hbe ⊢; tauto)
  · rw [h2]
    intro be hbe
    simp only [List.mem_append, List.mem_cons] at hbe
    rcases hbe with hbe | rfl | hbe
    · exact hl be (by simp [hbe])
    · exact ⟨(hl (k, v) (by simp)).1, hw⟩
    · exact hl be (by simp [hbe])

theorem overT_append {l : List (Expr F × Expr F)} {k v : Expr F} (hl : OverT P l) (hk : Over P k) (hv : Over P v) : OverT P (l ++ [(k, v)]) := by
  intro be hbe
  rcases List.mem_append.1 hbe with h | h
  · exact hl be h
  · rw [List.mem_singleton] at h; subst h; exact ⟨hk, hv⟩

theorem overT_fold {σ α : Type} {f : σ → α → Res σ} {Q : σ → Prop} {R : α → Prop} {s s' : σ} {as : List α}
    (hf : ∀ s a s1, Q s → R a → f s a = .ok s1 → Q s1) (h0 : Q s) (ha : ∀ a ∈ as, R a) (h : foldRes f s as = .ok s') : Q s' := by
  induction as generalizing s with
  | nil => simp only [foldRes, Except.ok.injEq] at h; subst h; exact h0
  | cons a as ih =>
    unfold foldRes at h
    cases h1 : f s a with
    | error e => simp [h1] at h
    | ok s1 =>
      simp only [h1] at h
      exact ih (hf s a s1 h0 (ha a (by simp)) h1) (fun x hx => ha x (by simp [hx])) h

/-! ## Sums -/

mutual
theorem over_flatAdd (hP : Basic P) : ∀ e : Expr F, Over P e → ∀ t ∈ flatAdd e, Over P t
  | .node h as => by
    intro hg t ht
    rw [flatAdd.eq_def] at ht
    cases h
    case add => exact over_flatAdds hP as (over_node.1 hg).2 t ht
    all_goals (simp only [List.mem_singleton] at ht; subst ht; exact hg)
theorem over_flatAdds (hP : Basic P) : ∀ es : List (Expr F), (∀ e ∈ es, Over P e) → ∀ t ∈ flatAdds es, Over P t
  | [] => by intro _ t ht; rw [flatAdds] at ht; simp at ht
  | a :: as => by
    intro hg t ht
    rw [flatAdds, List.mem_append] at ht
    rcases ht with ht | ht
    · exact over_flatAdd hP a (hg a (by simp)) t ht
    · exact over_flatAdds hP as (fun e he => hg e (by simp [he])) t ht
end

theorem over_addTwo (hP : Basic P) {a b r : Expr F} (h : addTwo a b = .ok (some r)) : Over P r := by
  unfold addTwo at h
  split at h
  · split at h
    · cases h
    · split at h
      · cases h
      · rename_i hc; cases h; exact over_toExpr hP hc
  all_goals first | (cases h; exact hP.oundef) | (cases h; exact hP.ozoo) | cases h

variable {K : Ctors F} {lic : Lic F}

/-- The entries of `addition_parts` are over `P` and no key is zero. -/
abbrev OverA (P : Head F → List (Expr F) → Prop) (l : List (Expr F × Expr F)) : Prop := OverT P l ∧ ∀ be ∈ l, be.1 ≠ .int 0

omit [FloatSem F] in
theorem setKey_keys [FloatOps F] (k v : Expr F) (l : List (Expr F × Expr F)) : (setKey k v l).map Prod.fst = l.map Prod.fst := by
  induction l with
  | nil => rfl
  | cons a l ih =>
    obtain ⟨a, w⟩ := a
    unfold setKey
    split
    · rfl
    · simp [ih]

theorem over_addTerm (hP : Basic P) (hK : Closed P K) (p : AddParts F) (t : Expr F) (q : AddParts F) (hp : OverA P p.terms) (ht : Over P t)
    (h : addTerm K p t = .ok q) : OverA P q.terms := by
  unfold addTerm at h
  have h2 := over_asCoeffMul hP ht
  split at h
  · split at h
    · cases h
    · cases h; exact hp
  · split at h
    · cases h
      refine ⟨overT_append hp.1 h2.2 h2.1, fun be hbe => ?_⟩
      rcases List.mem_append.1 hbe with hbe | hbe
      · exact hp.2 be hbe
      · rw [List.mem_singleton] at hbe; subst hbe; exact asCoeffMul_ne_zero t
    · rename_i c0 hf
      have h3 := overT_find hp.1 hf
      split at h
      · cases h
      · rename_i c' hc
        cases h
        refine ⟨h3.2.2 c' (hK.add _ _ (by simpa using ⟨h3.1, h2.1⟩) hc), fun be hbe => ?_⟩
        have h4 : be.1 ∈ (setKey (asCoeffMul t).2 c' p.terms).map Prod.fst := List.mem_map_of_mem hbe
        rw [setKey_keys] at h4
        obtain ⟨be', hbe', he⟩ := List.mem_map.1 h4
        rw [← he]; exact hp.2 be' hbe'

theorem over_sumOperand (hP : Basic P) (hK : Closed P K) {mc : Expr F × Expr F} {r : Expr F} (hm : Over P mc.1 ∧ Over P mc.2)
    (h1 : mc.1 ≠ .int 0) (h2 : mc.2 ≠ .int 0) (h : sumOperand K mc = .ok r) : Over P r := by
  unfold sumOperand at h
  split at h
  · cases h; exact hm.1
  · split at h
    · exact hK.mul _ _ (by simpa using hm) h
    · exact hK.mul _ _ (by simpa using hm) h
    · cases h; exact over_newMul2 hP hm.2 hm.1 h2 h1

theorem over_newSum (hP : Basic P) {ts : List (Expr F)} (h : ∀ t ∈ ts, Over P t) : Over P (newSum ts) := by
  rcases ts with _ | ⟨a, _ | ⟨b, ts⟩⟩
  · exact hP.oint 0
  · exact h a (by simp)
  · rw [show newSum (a :: b :: ts) = .add (sortTerms (a :: b :: ts)) from rfl, hP.oadd, over_sorted hP]; exact h

theorem over_createSum (hP : Basic P) (hK : Closed P K) {p : AddParts F} {r : Expr F} (hp : OverA P p.terms) (h : createSum K p = .ok r) : Over P r := by
  unfold createSum at h
  split at h
  · cases h
  · rename_i c hc
    split at h
    · cases h; exact hP.oundef
    · split at h
      · cases h
      · rename_i ts hts
        cases h
        have h1 := over_mapRes (P := P) hts fun mc hmc b hb =>
          over_sumOperand hP hK (hp.1 mc (List.mem_filter.1 hmc).1) (hp.2 mc (List.mem_filter.1 hmc).1)
            (fun h0 => by have := (List.mem_filter.1 hmc).2; rw [isInt_iff.2 h0] at this; cases this) hb
        apply over_newSum hP
        split
        · exact h1
        · intro t ht
          rcases List.mem_cons.1 ht with rfl | ht
          · exact over_toExpr hP hc
          · exact h1 t ht

theorem over_sumGeneral (hP : Basic P) (hK : Closed P K) {ts : List (Expr F)} {r : Expr F} (ht : ∀ t ∈ ts, Over P t) (h : sumGeneral K ts = .ok r) :
    Over P r := by
  unfold sumGeneral at h
  split at h
  · cases h
  · rename_i p hp
    refine over_createSum hP hK ?_ h
    exact overT_fold (Q := fun p : AddParts F => OverA P p.terms) (R := Over P) (fun s a s1 => over_addTerm hP hK s a s1) (by simp [OverA, OverT])
      (over_flatAdds hP ts ht) hp

theorem over_addFrom (hP : Basic P) (hK : Closed P K) (ts : List (Expr F)) (r : Expr F) (ht : ∀ t ∈ ts, Over P t) (h : addFrom K ts = .ok r) : Over P r := by
  unfold addFrom at h
  split at h
  · cases h
  · cases h; exact ht _ (by simp)
  · split at h
    · cases h
    · rename_i hr; cases h; exact over_addTwo hP hr
    · exact over_sumGeneral hP hK ht h
  · exact over_sumGeneral hP hK ht h

/-! ## Powers -/

theorem over_fromComplex (hP : Basic P) (hK : Closed P K) {c : F × F} {r : Expr F} (h : fromComplex K c = .ok r) : Over P r := by
  unfold fromComplex at h
  split at h
  · cases h; exact over_floatExpr hP _
  · split at h
    · cases h
    · rename_i m hm
      have h1 := hK.mul _ _ (by simpa using ⟨over_floatExpr hP _, hP.oimag⟩) hm
      exact hK.add _ _ (by simpa using ⟨over_floatExpr hP _, h1⟩) h

theorem over_expFn (hP : Basic P) (hK : Closed P K) {x r : Expr F} (hx : Over P x) (h : expFn K x = .ok r) : Over P r := by
  unfold expFn at h
  split_ifs at h
  · cases h; exact hP.oint 1
  · cases h; exact hP.oconst _
  · cases h; exact hP.oundef
  · split at h
    · exact over_fromComplex hP hK h
    · cases h; exact hP.ofn.2 (by simpa using hx)

theorem over_powOperandExpr (hP : Basic P) {o : PowOperand} {r : Expr F} (h : powOperandExpr o = .ok r) : Over P r := by
  unfold powOperandExpr at h
  split at h
  · exact over_ratExpr hP h
  · cases h; exact hP.oimag
  · split at h
    · cases h
    · rename_i hx; cases h; exact hP.opow.2 ⟨hP.oint _, over_ratExpr hP hx⟩

theorem over_numPowRes (hP : Basic P) (hK : Closed P K) {x : Res NumPow} {r : Expr F} (h : numPowRes K x = .ok (some r)) : Over P r := by
  unfold numPowRes at h
  split at h
  · cases h
  · split at h
    · cases h
    · rename_i y hy
      cases h
      unfold numPowExpr at hy
      split at hy
      · exact over_ratExpr hP hy
      · cases hy; exact hP.ozoo
      · cases hy; exact hP.oundef
      · split at hy
        · cases hy
        · rename_i ts hts
          exact hK.mul _ _ (over_mapRes hts fun a _ b hb => over_powOperandExpr hP hb) hy

theorem over_powFloat (hP : Basic P) {a b : Bool} {x y : F} {r : Expr F} (h : powFloat lic a b x y = some r) : Over P r := by
  unfold powFloat at h
  split_ifs at h
  · cases h; exact hP.ozoo
  · cases h; exact hP.oflt _

theorem over_powZoo (hP : Basic P) (a b : Bool) : Over P (powZoo a b : Expr F) := by
  unfold powZoo
  split_ifs
  · exact hP.ozoo
  · exact hP.oint 0
  · exact hP.oundef

theorem over_powNumeric (hP : Basic P) (hK : Closed P K) {b e r : Expr F} (h : powNumeric K lic b e = .ok (some r)) : Over P r := by
  unfold powNumeric at h
  split at h
  all_goals first
    | (cases h; first | exact hP.oundef | exact over_powZoo hP _ _)
    | exact over_numPowRes hP hK h
    | (simp only [Except.ok.injEq] at h; exact over_powFloat hP h)
    | cases h

theorem over_powImag (hP : Basic P) {b e r : Expr F} (h : powImag b e = .ok (some r)) : Over P r := by
  unfold powImag at h
  split at h
  · split at h
    · cases h
      unfold imagInt
      split
      · exact hP.oint 1
      · exact hP.oint _
      · exact hP.oimag
      · exact over_newMul2 hP (hP.oint _) hP.oimag (by simp) (by simp)
    · split at h
      · cases h
      · rename_i x hx
        cases h
        unfold imagRatExpr at hx
        split at hx
        · cases hx
        · split at hx
          · cases hx
          · rename_i y hy
            have h1 : Over P (.pow .imag y : Expr F) := hP.opow.2 ⟨hP.oimag, over_ratExpr hP hy⟩
            cases hx
            split
            · exact over_newMul2 hP (hP.oint _) h1 (by simp) (by simp)
            · exact h1
    · cases h
  · cases h

theorem over_distributeExp (hK : Closed P K) {ts : List (Expr F)} {e r : Expr F} (ht : ∀ t ∈ ts, Over P t) (he : Over P e)
    (h : distributeExp K lic ts e = .ok (some r)) : Over P r := by
  unfold distributeExp at h
  split at h
  · cases h
  · cases h
  · rename_i ps _ hps
    have h1 := over_mapRes (P := P) hps fun t htm b hb => hK.pow _ _ _ (ht t (List.mem_filter.1 htm).1) he hb
    split at h
    · cases h
    · rename_i a ha
      have h2 := hK.mul _ _ h1 ha
      split at h
      · cases h; exact h2
      · split at h
        · cases h
        · rename_i x hx
          have h3 := hK.mul _ _ (fun t htm => ht t (List.mem_filter.1 htm).1) hx
          split at h
          · cases h
          · rename_i p hp
            have h4 := hK.pow _ _ _ h3 he hp
            split at h
            · cases h
            · rename_i y hy
              cases h
              exact hK.mul _ _ (by simpa using ⟨h2, h4⟩) hy

theorem over_powProduct (hK : Closed P K) {ts : List (Expr F)} {e r : Expr F} (ht : ∀ t ∈ ts, Over P t) (he : Over P e)
    (h : powProduct K ts e = .ok (some r)) : Over P r := by
  unfold powProduct at h
  split at h
  · cases h
  · rename_i ps hps
    have h1 := over_mapRes (P := P) hps fun t htm b hb => hK.pow _ _ _ (ht t htm) he hb
    split at h
    · cases h
    · rename_i hy; cases h; exact hK.mul _ _ h1 hy

theorem over_powTail (hP : Basic P) (hK : Closed P K) {b e r : Expr F} (hb : Over P b) (he : Over P e) (h : powTail K lic b e = .ok (some r)) :
    Over P r := by
  unfold powTail at h
  split_ifs at h
  · cases h; exact hP.oundef
  · cases h; exact hP.oint 1
  · cases h; exact hb
  · split at h
    · exact over_powProduct hK (over_factors hb) he h
    · exact over_distributeExp hK (over_factors hb) he h
    · cases h

theorem over_powNested (hP : Basic P) (hK : Closed P K) {b e r : Expr F} (hb : Over P b) (he : Over P e) (h : powNested K lic b e = .ok (some r)) :
    Over P r := by
  unfold powNested at h
  split at h
  · have h1 := hP.opow.1 hb
    split at h
    · cases h
    · exact over_powTail hP hK hb he h
    · split at h
      · cases h
      · rename_i x hx
        have h2 := hK.mul _ _ (by simpa using ⟨h1.2, he⟩) hx
        split at h
        · cases h
        · rename_i hy; cases h; exact hK.pow _ _ _ h1.1 h2 hy
  · have h1 := hP.ofn.1 hb
    split at h
    · split at h
      · cases h
      · rename_i y hy
        have h2 := hK.mul _ _ (by simpa using ⟨h1 _ (by simp), he⟩) hy
        split at h
        · cases h
        · rename_i hz; cases h; exact over_expFn hP hK h2 hz
    · exact over_powTail hP hK hb he h
  · exact over_powTail hP hK hb he h

theorem over_powSimplify (hP : Basic P) (hK : Closed P K) {b e r : Expr F} (hb : Over P b) (he : Over P e) (h : powSimplify K lic b e = .ok (some r)) :
    Over P r := by
  unfold powSimplify at h
  split at h
  · cases h
  · rename_i hn; cases h; exact over_powNumeric hP hK hn
  · unfold powSymbolic at h
    split at h
    · cases h; exact hP.oundef
    · split at h
      · cases h
      · rename_i hn; cases h; exact over_powImag hP hn
      · split at h
        · split at h
          · cases h
          · rename_i hz; cases h; exact over_expFn hP hK he hz
        · exact over_powNested hP hK hb he h

theorem over_powCreate (hP : Basic P) (hK : Closed P K) (b e r : Expr F) (hb : Over P b) (he : Over P e) (h : powCreate K lic b e = .ok r) :
    Over P r := by
  unfold powCreate at h
  split at h
  · cases h
  · rename_i hn; cases h; exact over_powSimplify hP hK hb he hn
  · cases h; exact hP.opow.2 ⟨hb, he⟩

/-! ## Products -/

mutual
theorem over_flatMul (hP : Basic P) : ∀ e : Expr F, Over P e → ∀ t ∈ flatMul e, Over P t
  | .node h as => by
    intro hg t ht
    rw [flatMul.eq_def] at ht
    cases h
    case mul => exact over_flatMuls hP as (over_node.1 hg).2 t ht
    all_goals (simp only [List.mem_singleton] at ht; subst ht; exact hg)
theorem over_flatMuls (hP : Basic P) : ∀ es : List (Expr F), (∀ e ∈ es, Over P e) → ∀ t ∈ flatMuls es, Over P t
  | [] => by intro _ t ht; rw [flatMuls] at ht; simp at ht
  | a :: as => by
    intro hg t ht
    rw [flatMuls, List.mem_append] at ht
    rcases ht with ht | ht
    · exact over_flatMul hP a (hg a (by simp)) t ht
    · exact over_flatMuls hP as (fun e he => hg e (by simp [he])) t ht
end

theorem over_mergePower (hP : Basic P) (hK : Closed P K) {p q : MulParts F} {b u e0 : Expr F} (hp : OverT P p.terms) (hf : findKey b p.terms = some e0)
    (hb : Over P b) (hu : Over P u) (h : mergePower K lic p b u = .ok q) : OverT P q.terms := by
  have h3 := overT_find hp hf
  unfold mergePower at h
  split at h
  · split at h
    · cases h
    · rename_i r hr
      split at h
      · exact hK.visit _ _ _ h3.2.1 (over_powSimplify hP hK hb hu hr) h
      · cases h; exact h3.2.2 u hu
    · cases h; exact h3.2.2 u hu
  · cases h; exact h3.2.2 u hu

theorem over_insertPower (hP : Basic P) (hK : Closed P K) {p q : MulParts F} {b e : Expr F} (hp : OverT P p.terms)
    (hb : Over P b) (he : Over P e) (h : insertPower K lic p b e = .ok q) : OverT P q.terms := by
  unfold insertPower at h
  split at h
  · cases h; exact overT_append hp hb he
  · rename_i e0 hf
    split at h
    · cases h
    · rename_i u hu
      exact over_mergePower hP hK hp hf hb (hK.add _ _ (by simpa using ⟨(overT_find hp hf).1, he⟩) hu) h

theorem over_mulTerm (hP : Basic P) (hK : Closed P K) (p : MulParts F) (t : Expr F) (q : MulParts F) (hp : OverT P p.terms) (ht : Over P t)
    (h : mulTerm K lic p t = .ok q) : OverT P q.terms := by
  unfold mulTerm at h
  split at h
  · split at h
    · cases h
    · cases h; exact hp
  · split at h
    · have := hP.opow.1 ht
      exact over_insertPower hP hK hp this.1 this.2 h
    · exact over_insertPower hP hK hp (hP.oconst _) (hP.ofn.1 ht _ (by simp)) h
    · exact over_insertPower hP hK hp ht (hP.oint 1) h

theorem over_mulVisit (hP : Basic P) (hK : Closed P K) (p : MulParts F) (t : Expr F) (q : MulParts F) (hp : OverT P p.terms) (ht : Over P t)
    (h : mulVisit K lic p t = .ok q) : OverT P q.terms :=
  overT_fold (Q := fun p : MulParts F => OverT P p.terms) (R := Over P) (fun s a s1 => over_mulTerm hP hK s a s1) hp (over_flatMul hP t ht) h

theorem over_collectPower (hP : Basic P) {st st' : CreateSt F} {pw : Expr F} (hs : ∀ t ∈ st.2, Over P t ∧ t ≠ .int 0) (hp : Over P pw)
    (h : collectPower st pw = .ok st') : ∀ t ∈ st'.2, Over P t ∧ t ≠ .int 0 := by
  have h2 := over_asCoeffMul hP hp
  have h3 : ∀ t ∈ (if isInt 1 (asCoeffMul pw).2 then st.2 else st.2 ++ [(asCoeffMul pw).2]), Over P t ∧ t ≠ .int 0 := by
    split
    · exact hs
    · intro t ht
      rcases List.mem_append.1 ht with ht | ht
      · exact hs t ht
      · rw [List.mem_singleton] at ht; subst ht; exact ⟨h2.2, asCoeffMul_ne_zero pw⟩
  unfold collectPower at h
  split at h
  · split at h
    · cases h; exact h3
    · split at h
      · cases h
      · cases h; exact h3
  · rename_i hn
    cases h
    intro t ht
    rcases List.mem_append.1 ht with ht | ht
    · exact hs t ht
    · rw [List.mem_singleton] at ht; subst ht
      exact ⟨hp, by rintro rfl; exact hn rfl⟩

theorem over_mulIntoAdd (hK : Closed P K) {ts : List (Expr F)} {c r : Expr F} (ht : ∀ t ∈ ts, Over P t) (hc : Over P c)
    (h : mulIntoAdd K ts c = .ok r) : Over P r := by
  unfold mulIntoAdd at h
  split at h
  · cases h
  · rename_i rs hrs
    exact hK.add _ _ (over_mapRes hrs fun t htm b hb => hK.mul _ _ (by simpa using ⟨ht t htm, hc⟩) hb) h

theorem over_finishProduct (hP : Basic P) (hK : Closed P K) {c r : Expr F} {args : List (Expr F)} (hc : Over P c) (ha : ∀ t ∈ args, Over P t ∧ t ≠ .int 0)
    (h : finishProduct K c args = .ok r) : Over P r := by
  unfold finishProduct at h
  by_cases h0 : (isInt 0 c || isUndef c) = true
  · rw [if_pos h0] at h; cases h; exact hc
  · rw [if_neg h0] at h
    have h1 : ∀ t ∈ args ++ [c], Over P t ∧ t ≠ .int 0 := by
      intro t ht
      rcases List.mem_append.1 ht with ht | ht
      · exact ha t ht
      · rw [List.mem_singleton] at ht; subst ht
        refine ⟨hc, ?_⟩
        rintro rfl
        exact h0 rfl
    split at h
    · exact over_mulIntoAdd hK (hP.oadd.1 (ha _ (by simp)).1) hc h
    · cases h; exact over_maybeNewMul hP (hP.mul _ fun t ht => (ha t ht).2) fun t ht => (ha t ht).1
    · cases h
      exact over_maybeNewMul hP (hP.mul _ fun t ht => (h1 t ht).2) fun t ht => (h1 t ht).1

theorem over_createProduct (hP : Basic P) (hK : Closed P K) {p : MulParts F} {r : Expr F} (hp : OverT P p.terms) (h : createProduct K p = .ok r) :
    Over P r := by
  unfold createProduct at h
  split at h
  · cases h
  · rename_i st hst
    have h1 : ∀ t ∈ st.2, Over P t ∧ t ≠ .int 0 := by
      refine overT_fold (Q := fun s : CreateSt F => ∀ t ∈ s.2, Over P t ∧ t ≠ .int 0) (R := fun be => Over P be.1 ∧ Over P be.2) ?_ (by simp)
        (fun be hbe => hp be (List.mem_filter.1 hbe).1) hst
      intro s be s1 hs hbe h1
      unfold createStep at h1
      split at h1
      · cases h1
      · rename_i pw hpw
        exact over_collectPower hP hs (hK.pow _ _ _ hbe.1 hbe.2 hpw) h1
    split at h
    · cases h
    · rename_i c hc
      exact over_finishProduct hP hK (over_toExpr hP hc) h1 h

theorem over_productGeneral (hP : Basic P) (hK : Closed P K) {ts : List (Expr F)} {r : Expr F} (ht : ∀ t ∈ ts, Over P t)
    (h : productGeneral K lic ts = .ok r) : Over P r := by
  unfold productGeneral at h
  split at h
  · cases h
  · rename_i p hp
    exact over_createProduct hP hK (overT_fold (Q := fun p : MulParts F => OverT P p.terms) (R := Over P) (fun s a s1 => over_mulVisit hP hK s a s1)
      (by simp [OverT]) ht hp) h

theorem over_mulFrom (hP : Basic P) (hK : Closed P K) (ts : List (Expr F)) (r : Expr F) (ht : ∀ t ∈ ts, Over P t) (h : mulFrom K lic ts = .ok r) :
    Over P r := by
  unfold mulFrom at h
  split at h
  · cases h
  · cases h; exact ht _ (by simp)
  · rename_i a b
    have ha := ht a (by simp)
    have hb := ht b (by simp)
    unfold mulTwo at h
    split at h
    · split at h
      · exact over_mulIntoAdd hK (hP.oadd.1 ha) hb h
      · exact over_productGeneral hP hK ht h
    · split at h
      · exact over_mulIntoAdd hK (hP.oadd.1 hb) ha h
      · exact over_productGeneral hP hK ht h
    · exact over_productGeneral hP hK ht h
  · exact over_productGeneral hP hK ht h

/-- The constructors are closed. -/
theorem ctors_closed (hP : Basic P) (lic : Lic F) : ∀ n, Closed P (ctors lic n)
  | 0 => ⟨fun _ _ _ h => (by cases h), fun _ _ _ h => (by cases h), fun _ _ _ _ _ h => (by cases h), fun _ _ _ _ _ h => (by cases h)⟩
  | n + 1 =>
    have hK := ctors_closed hP lic n
    ⟨over_addFrom hP hK, over_mulFrom hP hK, over_powCreate hP hK, over_mulVisit hP hK⟩
end

/-! ## Functions -/

section
variable [FnSem F] {P : Head F → List (Expr F) → Prop} {K : Ctors F}

theorem over_negE (hP : Basic P) (hK : Closed P K) {x r : Expr F} (hx : Over P x) (h : negE K x = .ok r) : Over P r :=
  hK.mul _ _ (by simpa using ⟨hP.oint _, hx⟩) h

theorem over_divE (hP : Basic P) (hK : Closed P K) {a b r : Expr F} (ha : Over P a) (hb : Over P b) (h : divE K a b = .ok r) : Over P r := by
  unfold divE at h
  split at h
  · cases h
  · rename_i p hp
    exact hK.mul _ _ (by simpa using ⟨ha, hK.pow _ _ _ hb (hP.oint _) hp⟩) h

theorem over_swapArg (hP : Basic P) (hK : Closed P K) {x y : Expr F} (hx : Over P x) (h : swapArg K x = .ok (some y)) : Over P y := by
  unfold swapArg at h
  split_ifs at h
  · cases h; exact hP.oint 1
  · split at h
    · cases h
    · rename_i hd; cases h; exact over_divE hP hK hx hP.oimag hd
  · cases h

theorem over_fnOfPi (hP : Basic P) (hK : Closed P K) {f : BuiltIn} {r : RatC} {x : Expr F} (h : fnOfPi K f r = .ok x) : Over P x := by
  unfold fnOfPi at h
  split at h
  · cases h
  · rename_i c hc
    split at h
    · cases h
    · rename_i m hm
      cases h
      exact hP.ofn.2 (by simpa using hK.mul _ _ (by simpa using ⟨over_ratExpr hP hc, hP.oconst _⟩) hm)

theorem over_finishFn (hP : Basic P) (hK : Closed P K) {f : BuiltIn} {x r : Expr F} (hx : Over P x) (h : finishFn K f x = .ok r) : Over P r := by
  unfold finishFn at h
  split at h
  · exact over_fromComplex hP hK h
  · split at h
    · cases h; exact hP.oundef
    · cases h; exact hP.ofn.2 (by simpa using hx)

theorem over_finishHyp (hP : Basic P) (hK : Closed P K) {f g : BuiltIn} {x r : Expr F} (hx : Over P x) (h : finishHyp K f g x = .ok r) : Over P r := by
  have hn : Over P (.fn f [x]) := hP.ofn.2 (by simpa using hx)
  unfold finishHyp at h
  split at h
  · exact over_fromComplex hP hK h
  · split at h
    · cases h; exact hP.oundef
    · split at h
      · split at h
        · cases h; exact hP.ofn.1 hx _ (by simp)
        · cases h; exact hn
      · cases h; exact hn

theorem over_piOver (hP : Basic P) (hK : Closed P K) {n : Int} {r : Expr F} (h : piOver K n = .ok r) : Over P r :=
  over_divE hP hK (hP.oconst _) (hP.oint _) h

theorem over_timesCall (hK : Closed P K) {c r : Expr F} {x : Res (Expr F)} (hc : Over P c) (hx : ∀ y, x = .ok y → Over P y)
    (h : timesCall K c x = .ok r) : Over P r := by
  unfold timesCall at h
  split at h
  · cases h
  · exact hK.mul _ _ (by simpa using ⟨hc, hx _ rfl⟩) h

theorem over_callNeg (hP : Basic P) (hK : Closed P K) {R : BuiltIn → Expr F → Res (Expr F)} (hR : ∀ f x r, Over P x → R f x = .ok r → Over P r)
    {f : BuiltIn} {x r : Expr F} (hx : Over P x) (h : callNeg K R f x = .ok r) : Over P r := by
  unfold callNeg at h
  split at h
  · cases h
  · rename_i y hy; exact hR f y r (over_negE hP hK hx hy) h

theorem over_cosPi (hP : Basic P) (hK : Closed P K) {q : RatC} {r : Expr F} (h : cosPi K q = .ok r) : Over P r := by
  unfold cosPi at h
  split at h
  · cases h
  · split_ifs at h
    all_goals first | (cases h; exact hP.oint _) | exact over_fnOfPi hP hK h

theorem over_sinPi (hP : Basic P) (hK : Closed P K) {q : RatC} {r : Expr F} (h : sinPi K q = .ok r) : Over P r := by
  unfold sinPi at h
  split at h
  · cases h
  · split_ifs at h
    all_goals first | (cases h; exact hP.oint _) | exact over_fnOfPi hP hK h

theorem over_tanPi (hP : Basic P) (hK : Closed P K) {q : RatC} {r : Expr F} (h : tanPi K q = .ok r) : Over P r := by
  unfold tanPi at h
  split at h
  · cases h
  · split at h
    · cases h
    · split_ifs at h
      all_goals first | (cases h; exact hP.oint _) | (cases h; exact hP.ozoo) | exact over_fnOfPi hP hK h

theorem over_fnStep (hP : Basic P) (hK : Closed P K) {R : BuiltIn → Expr F → Res (Expr F)} (hR : ∀ f x r, Over P x → R f x = .ok r → Over P r)
    (f : BuiltIn) (x r : Expr F) (hx : Over P x) (h : fnStep K R f x = .ok r) : Over P r := by
  cases f with
  | cos =>
    change cosFn K R x = .ok r at h
    unfold cosFn at h
    split at h
    · cases h
    · rename_i hs; exact hR _ _ _ (over_swapArg hP hK hx hs) h
    · split at h
      · exact over_cosPi hP hK h
      · split_ifs at h
        · cases h; exact hP.oint 1
        · exact over_callNeg hP hK hR hx h
        · exact over_finishFn hP hK hx h
  | sin =>
    change sinFn K R x = .ok r at h
    unfold sinFn at h
    split at h
    · cases h
    · rename_i hs; exact over_timesCall hK hP.oimag (fun y hy => hR _ _ _ (over_swapArg hP hK hx hs) hy) h
    · split at h
      · exact over_sinPi hP hK h
      · split_ifs at h
        · cases h; exact hP.oint 0
        · exact over_timesCall hK (hP.oint _) (fun y hy => over_callNeg hP hK hR hx hy) h
        · exact over_finishFn hP hK hx h
  | tan =>
    change tanFn K R x = .ok r at h
    unfold tanFn at h
    split at h
    · cases h
    · rename_i hs; exact over_timesCall hK hP.oimag (fun y hy => hR _ _ _ (over_swapArg hP hK hx hs) hy) h
    · split at h
      · exact over_tanPi hP hK h
      · split_ifs at h
        · cases h; exact hP.oint 0
        · exact over_timesCall hK (hP.oint _) (fun y hy => over_callNeg hP hK hR hx hy) h
        · exact over_finishFn hP hK hx h
  | arccos =>
    change acosFn K x = .ok r at h
    unfold acosFn at h
    split_ifs at h
    · exact over_piOver hP hK h
    · cases h; exact hP.oint 0
    · cases h; exact hP.oconst _
    · exact over_finishFn hP hK hx h
  | arcsin =>
    change asinFn K R x = .ok r at h
    unfold asinFn at h
    split_ifs at h
    · cases h; exact hP.oint 0
    · exact over_piOver hP hK h
    · exact over_timesCall hK (hP.oint _) (fun y hy => over_piOver hP hK hy) h
    · exact over_timesCall hK (hP.oint _) (fun y hy => over_callNeg hP hK hR hx hy) h
    · exact over_finishFn hP hK hx h
  | arctan =>
    change atanFn K R x = .ok r at h
    unfold atanFn at h
    split_ifs at h
    · cases h; exact hP.oint 0
    · exact over_piOver hP hK h
    · exact over_timesCall hK (hP.oint _) (fun y hy => over_piOver hP hK hy) h
    · exact over_timesCall hK (hP.oint _) (fun y hy => over_callNeg hP hK hR hx hy) h
    · exact over_finishFn hP hK hx h
  | cosh =>
    change coshFn K R x = .ok r at h
    unfold coshFn at h
    split at h
    · cases h
    · rename_i hs; exact hR _ _ _ (over_swapArg hP hK hx hs) h
    · split_ifs at h
      · cases h; exact hP.oint 1
      · exact over_callNeg hP hK hR hx h
      · exact over_finishHyp hP hK hx h
  | sinh =>
    change sinhFn K R x = .ok r at h
    unfold sinhFn at h
    split at h
    · cases h
    · rename_i hs; exact over_timesCall hK hP.oimag (fun y hy => hR _ _ _ (over_swapArg hP hK hx hs) hy) h
    · split_ifs at h
      · cases h; exact hP.oint 0
      · exact over_timesCall hK (hP.oint _) (fun y hy => over_callNeg hP hK hR hx hy) h
      · exact over_finishHyp hP hK hx h
  | tanh =>
    change tanhFn K R x = .ok r at h
    unfold tanhFn at h
    split at h
    · cases h
    · rename_i hs; exact over_timesCall hK hP.oimag (fun y hy => hR _ _ _ (over_swapArg hP hK hx hs) hy) h
    · split_ifs at h
      · cases h; exact hP.oint 0
      · exact over_timesCall hK (hP.oint _) (fun y hy => over_callNeg hP hK hR hx hy) h
      · exact over_finishHyp hP hK hx h
  | arccosh =>
    change acoshFn K x = .ok r at h
    unfold acoshFn at h
    split_ifs at h
    · split at h
      · cases h
      · rename_i m hm
        exact over_divE hP hK (hK.mul _ _ (by simpa using ⟨hP.oimag, hP.oconst _⟩) hm) (hP.oint _) h
    · exact over_finishFn hP hK hx h
  | arcsinh =>
    change asinhFn K x = .ok r at h
    unfold asinhFn at h
    split_ifs at h
    · cases h; exact hP.oint 0
    · exact over_finishFn hP hK hx h
  | arctanh =>
    change atanhFn K x = .ok r at h
    unfold atanhFn at h
    split_ifs at h
    · cases h; exact hP.oint 0
    · exact over_finishFn hP hK hx h
  | exp => exact over_expFn hP hK hx h
  | log =>
    change logFn K x = .ok r at h
    unfold logFn at h
    split_ifs at h
    · cases h; exact hP.oint 1
    · cases h; exact hP.oint 0
    · cases h; exact hP.oundef
    · exact over_finishFn hP hK hx h
  | abs =>
    change absFn K x = .ok r at h
    unfold absFn at h
    split at h
    · cases h; exact hx
    · split at h
      · unfold absRat at h
        split at h
        · cases h; exact hx
        · split at h
          · cases h
          · split at h
            · cases h
            · exact over_ratExpr hP h
      · split at h
        · exact over_fromComplex hP hK h
        · split at h
          · cases h; exact hx
          · split at h
            · cases h; exact hP.oundef
            · cases h; exact hP.ofn.2 (by simpa using hx)
  | signum =>
    change signumFn x = .ok r at h
    unfold signumFn at h
    split at h
    · cases h; exact hP.oint _
    · cases h; exact hP.oint _
    · split at h
      · cases h; exact hP.ofn.2 (by simpa using hx)
      · cases h; exact hP.oint _
    · cases h; exact hP.oint _
    · cases h; exact hx
    · cases h; exact hx
    · cases h; exact hP.ofn.2 (by simpa using hx)
  | floor =>
    change floorFn x = .ok r at h
    unfold floorFn at h
    split at h
    · cases h; exact hP.oint _
    · split at h
      · cases h
      · cases h; exact hP.oint _
    · split at h
      · cases h; exact hP.ofn.2 (by simpa using hx)
      · split at h
        · cases h
        · cases h; exact hP.oint _
    · cases h; exact hx
    · cases h; exact hP.oint _
    · cases h; exact hx
    · cases h; exact hx
    · cases h; exact hP.ofn.2 (by simpa using hx)
  | arctan2 => cases h

theorem over_fns (hP : Basic P) (hK : Closed P K) : ∀ n f x r, Over P x → fns K n f x = .ok r → Over P r
  | 0, _, _, _, _, h => by cases h
  | n + 1, f, x, r, hx, h => over_fnStep hP hK (over_fns hP hK n) f x r hx h

theorem over_quadrant (hP : Basic P) (hK : Closed P K) {a b : Bool} {r : Expr F} (h : quadrant K a b = .ok r) : Over P r := by
  unfold quadrant at h
  split at h
  · exact over_piOver hP hK h
  · split at h
    · cases h
    · rename_i hm; exact over_divE hP hK (hK.mul _ _ (by simpa using ⟨hP.oint _, hP.oconst _⟩) hm) (hP.oint _) h
  · split at h
    · cases h
    · rename_i hm; exact over_divE hP hK (over_negE hP hK (hP.oconst _) hm) (hP.oint _) h
  · split at h
    · cases h
    · rename_i hm; exact over_divE hP hK (hK.mul _ _ (by simpa using ⟨hP.oint _, hP.oconst _⟩) hm) (hP.oint _) h

theorem over_atan2Int (hP : Basic P) (hK : Closed P K) {y x : Int} {r : Expr F} (h : atan2Int K y x = .ok (some r)) : Over P r := by
  unfold atan2Int at h
  split_ifs at h
  · cases h; exact hP.oint 0
  · split at h
    · cases h
    · rename_i hp; cases h; exact over_piOver hP hK hp
  · cases h; exact hP.oconst _
  · split at h
    · cases h
    · rename_i hp; cases h; exact over_timesCall hK (hP.oint _) (fun y hy => over_piOver hP hK hy) hp
  · split at h
    · cases h
    · split at h
      · cases h
      · split at h
        · split at h
          · cases h
          · rename_i hp; cases h; exact over_quadrant hP hK hp
        · cases h

theorem over_atan2Fn (hP : Basic P) (hK : Closed P K) {y x r : Expr F} (hy : Over P y) (hx : Over P x) (h : atan2Fn K y x = .ok r) : Over P r := by
  unfold atan2Fn at h
  split at h
  · cases h
  · rename_i hs
    cases h
    unfold atan2Simplify at hs
    split at hs
    · cases hs; exact hP.oundef
    · split at hs
      · cases hs; exact over_floatExpr hP _
      · exact over_atan2Int hP hK hs
      · cases hs
  · cases h; exact hP.ofn.2 (by simpa using ⟨hy, hx⟩)

theorem over_relCreate (hP : Basic P) {op : RelOp} {a b r : Expr F} (ha : Over P a) (hb : Over P b) (h : relCreate op a b = .ok r) : Over P r := by
  unfold relCreate at h
  split at h
  · cases h
  · split at h
    · cases h
    · cases h; exact hP.obconst _
    · unfold relNode at h
      split at h
      · split at h
        · cases h
        · cases h; exact over_node.2 ⟨hP.rel _ _, by simpa using ⟨ha, hb⟩⟩
        · cases h; exact over_node.2 ⟨hP.rel _ _, by simpa using ⟨hb, ha⟩⟩
      · cases h; exact over_node.2 ⟨hP.rel _ _, by simpa using ⟨ha, hb⟩⟩

theorem over_condCreate (hP : Basic P) {c a b : Expr F} (hc : Over P c) (ha : Over P a) (hb : Over P b) : Over P (condCreate c a b) := by
  unfold condCreate
  split_ifs
  · exact ha
  · exact hb
  · exact ha
  · exact over_node.2 ⟨hP.cond _, by simpa using ⟨hc, ha, hb⟩⟩

theorem over_iversonFn (hP : Basic P) {c : Expr F} (hc : Over P c) : Over P (iversonFn c) := by
  unfold iversonFn
  split
  · exact hP.oint 1
  · exact hP.oint 0
  · exact over_node.2 ⟨hP.iverson _, by simpa using hc⟩

theorem over_unevalCreate (hP : Basic P) {x : Expr F} (hx : Over P x) : Over P (unevalCreate x) := by
  unfold unevalCreate
  split
  · exact hx
  · exact over_node.2 ⟨hP.uneval _, by simpa using hx⟩

theorem over_stopCreate (hP : Basic P) {x : Expr F} (hx : Over P x) : Over P (stopCreate x) := by
  unfold stopCreate
  split
  · exact hx
  · exact over_node.2 ⟨hP.stop _, by simpa using hx⟩

theorem over_rebuild (hP : Basic P) (hK : Closed P K) {m : Nat} {h : Head F} {as bs : List (Expr F)} {r : Expr F} (hi : h.interpreted = true)
    (hh : P h as) (hb : ∀ b ∈ bs, Over P b) (hr : rebuild K m h bs = .ok r) : Over P r := by
  unfold rebuild at hr
  split at hr
  · exact hK.add _ _ hb hr
  · exact hK.mul _ _ hb hr
  · exact hK.pow _ _ _ (hb _ (by simp)) (hb _ (by simp)) hr
  · exact over_atan2Fn hP hK (hb _ (by simp)) (hb _ (by simp)) hr
  · exact over_fns hP hK _ _ _ _ (hb _ (by simp)) hr
  · cases hr; exact over_node.2 ⟨hP.symfn _ _ _ hh, hb⟩
  · cases hr; exact over_unevalCreate hP (hb _ (by simp))
  · cases hr; exact over_stopCreate hP (hb _ (by simp))
  · cases hr; exact over_iversonFn hP (hb _ (by simp))
  · cases hr; exact over_condCreate hP (hb _ (by simp)) (hb _ (by simp)) (hb _ (by simp))
  · exact over_relCreate hP (hb _ (by simp)) (hb _ (by simp)) hr
  all_goals first | cases hi | cases hr

theorem over_mapCond (hP : Basic P) {R : Expr F → Res (Expr F)} {c a b r : Expr F} (hR : ∀ x ∈ [c, a, b], ∀ y, R x = .ok y → Over P y)
    (h : mapCond R c a b = .ok r) : Over P r := by
  unfold mapCond at h
  split at h
  · cases h
  · rename_i c' hc
    split_ifs at h
    · exact hR a (by simp) r h
    · exact hR b (by simp) r h
    · split at h
      · cases h
      · rename_i a' ha
        split at h
        · cases h
        · rename_i b' hb
          cases h
          exact over_condCreate hP (hR c (by simp) c' hc) (hR a (by simp) a' ha) (hR b (by simp) b' hb)

theorem over_mapChildren (hP : Basic P) (hK : Closed P K) {m : Nat} {R : Expr F → Res (Expr F)} {h : Head F} {as : List (Expr F)} {r : Expr F}
    (hi : h.interpreted = true) (hh : P h as) (hR : ∀ x ∈ as, ∀ y, R x = .ok y → Over P y) (hr : mapChildren K m R (.node h as) = .ok r) : Over P r := by
  by_cases hc : ∃ c a b, Expr.node h as = Expr.cond c a b
  · obtain ⟨c, a, b, he⟩ := hc
    cases he
    exact over_mapCond hP hR hr
  · rw [mapChildren_node _ _ _ _ _ fun c a b he => hc ⟨c, a, b, he⟩] at hr
    cases hm : mapRes R as with
    | error e => simp [hm] at hr
    | ok bs =>
      simp only [hm] at hr
      exact over_rebuild hP hK hi hh (over_mapRes hm hR) hr
end

end Wf.Sym
