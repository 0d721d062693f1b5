import Verif.Sym.SingleLemmas

/-! # Replacing an expression by one of the same value: products -/

namespace Wf.Sym
open Complex

variable {F : Type} [DecidableEq F] [FnSem F]

/-- The node is plain and, if it is a product, no factor is the integer zero. -/
def Head.noZero (h : Head F) (as : List (Expr F)) : Prop := h.plain = true ∧ (h = .mul → ∀ t ∈ as, t ≠ .int 0)

/-- Every node is plain, and no product has a factor zero. -/
def PlainNZ (e : Expr F) : Prop := Over Head.noZero e

theorem noZero_basic : Basic (F := F) Head.noZero where
  int := fun _ => ⟨rfl, by simp⟩
  rat := fun _ => ⟨rfl, by simp⟩
  flt := fun _ => ⟨rfl, by simp⟩
  const := fun _ => ⟨rfl, by simp⟩
  zoo := ⟨rfl, by simp⟩
  undef := ⟨rfl, by simp⟩
  imag := ⟨rfl, by simp⟩
  mul := fun _ h => ⟨rfl, fun _ => h⟩
  mulSub := fun _ _ h hu => ⟨rfl, fun _ u hm => h.2 rfl u (hu u hm)⟩
  add := fun _ => ⟨rfl, by simp⟩
  pow := fun _ => ⟨rfl, by simp⟩
  fn := fun _ _ => ⟨rfl, by simp⟩
  rel := fun _ _ => ⟨rfl, by simp⟩
  cond := fun _ => ⟨rfl, by simp⟩
  iverson := fun _ => ⟨rfl, by simp⟩
  bconst := fun _ => ⟨rfl, by simp⟩
  uneval := fun _ => ⟨rfl, by simp⟩
  stop := fun _ => ⟨rfl, by simp⟩
  symfn := fun _ _ _ h => ⟨h.1, by simp⟩

mutual
theorem flatMul_nonzero : ∀ e : Expr F, PlainNZ e → e ≠ .int 0 → ∀ t ∈ flatMul e, t ≠ .int 0
  | .node h as => by
    intro hg h0 t ht
    rw [flatMul.eq_def] at ht
    cases h
    case mul => exact flatMuls_nonzero as (fun a ha => ⟨(over_node.1 hg).2 a ha, (over_node.1 hg).1.2 rfl a ha⟩) t ht
    all_goals (simp only [List.mem_singleton] at ht; subst ht; exact h0)
theorem flatMuls_nonzero : ∀ es : List (Expr F), (∀ e ∈ es, PlainNZ e ∧ e ≠ .int 0) → ∀ t ∈ flatMuls es, t ≠ .int 0
  | [] => by intro _ t ht; rw [flatMuls] at ht; simp at ht
  | a :: as => by
    intro hg t ht
    rw [flatMuls, List.mem_append] at ht
    rcases ht with ht | ht
    · exact flatMul_nonzero a (hg a (by simp)).1 (hg a (by simp)).2 t ht
    · exact flatMuls_nonzero as (fun e he => hg e (by simp [he])) t ht
end

section
variable {lic : Lic F} {ρ : Env F} {K : Ctors F}

theorem prodO_find {k v : Expr F} {l : List (Expr F × Expr F)} (h : findKey k l = some v) {z : ℂ} (hz : prodO (l.map (entryVal ρ)) = some z) :
    ∃ rest u, entryVal ρ (k, v) = some u ∧ z = rest * u ∧
      ∀ w u', entryVal ρ (k, w) = some u' → prodO ((setKey k w l).map (entryVal ρ)) = some (rest * u') := by
  obtain ⟨l1, l2, rfl, h2, _⟩ := findKey_split h
  rw [List.map_append, prodO_append, List.map_cons, prodO_cons, mulO_eq_some] at hz
  obtain ⟨a, b, ha, hb, rfl⟩ := hz
  rw [mulO_eq_some] at hb
  obtain ⟨u, c, hu, hc, rfl⟩ := hb
  refine ⟨a * c, u, hu, by ring, fun w u' hw => ?_⟩
  rw [h2, List.map_append, prodO_append, List.map_cons, prodO_cons, ha, hc, hw, mulO_some, mulO_some]
  congr 1; ring

theorem good_find {k v w : Expr F} {l : List (Expr F × Expr F)} (hl : ∀ be ∈ l, Good be.1 ∧ Good be.2) (h : findKey k l = some v) (hw : Good w) :
    Good k ∧ Good v ∧ ∀ be ∈ setKey k w l, Good be.1 ∧ Good be.2 := by
  obtain ⟨l1, l2, rfl, h2, _⟩ := findKey_split h
  have h3 := hl (k, v) (by simp)
  refine ⟨h3.1, h3.2, fun be hbe => ?_⟩
  rw [h2] at hbe
  simp only [List.mem_append, List.mem_cons] at hbe
  rcases hbe with hbe | rfl | hbe
  · exact hl be (by simp [hbe])
  · exact ⟨h3.1, hw⟩
  · exact hl be (by simp [hbe])

/-! ## Factors of a number -/

theorem add2_ok (hK : Sound lic ρ K) {a b r : Expr F} {u v : Option ℂ} (ha : FnOk lic ρ a u) (hb : FnOk lic ρ b v) (h : K.add [a, b] = .ok r) :
    FnOk lic ρ r (addO u v) := by
  have h1 := hK.add [a, b] r (by simpa using ⟨ha.1, hb.1⟩) h
  refine ⟨h1.1, fun ht z hz => h1.2 ht z ?_⟩
  obtain ⟨x, y, hx, hy, rfl⟩ := addO_eq_some.1 hz
  simp [sumO_cons, ha.2 ht x hx, hb.2 ht y hy]

/-- Multiplying an entry of the parts by an integer power of its base, which is not zero. -/
theorem bump_ok (hK : Sound lic ρ K) {b e0 u x : Expr F} {l : List (Expr F × Expr F)} {bv xv : ℂ} (hl : ∀ be ∈ l, Good be.1 ∧ Good be.2)
    (hf : findKey b l = some e0) (hx : FnOk lic ρ x (some xv)) (h : K.add [e0, x] = .ok u) (hb : eval ρ b = some bv) (hb0 : bv ≠ 0) :
    (∀ be ∈ setKey b u l, Good be.1 ∧ Good be.2) ∧
    (lic.TrueAt ρ → ∀ z, prodO (l.map (entryVal ρ)) = some z → prodO ((setKey b u l).map (entryVal ρ)) = some (z * bv ^ xv)) := by
  obtain ⟨_, hg0, _⟩ := good_find hl hf good_zero
  have h1 := add2_ok hK (self_ok e0 hg0) hx h
  refine ⟨(good_find hl hf h1.1).2.2, fun ht z hz => ?_⟩
  obtain ⟨rest, w, hw, rfl, hset⟩ := prodO_find hf hz
  rw [entryVal, hb, powO_eq_some] at hw
  obtain ⟨bv', ev, hb', hev, hw⟩ := hw
  cases hb'
  rw [powVal_of_ne hb0, Option.some.injEq] at hw
  have h2 := h1.2 ht (ev + xv) (by rw [hev]; rfl)
  rw [hset u (bv ^ (ev + xv)) (by rw [entryVal, hb, h2, powO_some, powVal_of_ne hb0]), ← hw, cpow_add _ _ hb0]
  congr 1; ring

theorem append_ok {b x : Expr F} {l : List (Expr F × Expr F)} {bv xv : ℂ} (hb : eval ρ b = some bv) (hb0 : bv ≠ 0) (hx : eval ρ x = some xv) {z : ℂ}
    (hz : prodO (l.map (entryVal ρ)) = some z) : prodO ((l ++ [(b, x)]).map (entryVal ρ)) = some (z * bv ^ xv) := by
  rw [List.map_append, prodO_append, hz, List.map_singleton, prodO_cons, prodO_nil, entryVal, hb, hx, powO_some, powVal_of_ne hb0]
  simp [mulO]

theorem insertFactor_ok (hK : Sound lic ρ K) {positive : Bool} {p q : MulParts F} {f : PrimeFactor} (hp : p.Fine) (hb : InI64 f.base) (hb0 : f.base ≠ 0)
    (hx : InI64 (if positive then (f.exponent : Int) else -f.exponent)) (h : insertFactor K positive p f = .ok q) :
    q.Fine ∧ q.coeff = p.coeff ∧ (lic.TrueAt ρ → ∀ z, prodO (p.terms.map (entryVal ρ)) = some z →
      prodO (q.terms.map (entryVal ρ)) = some (z * (f.base : ℂ) ^ (if positive then (f.exponent : Int) else -f.exponent))) := by
  have hbe : eval ρ (.int f.base : Expr F) = some (f.base : ℂ) := eval_int ρ _
  have hb0' : (f.base : ℂ) ≠ 0 := by exact_mod_cast hb0
  unfold insertFactor at h
  cases hf : findKey (.int f.base) p.terms with
  | none =>
    simp only [hf, Except.ok.injEq] at h
    subst h
    refine ⟨⟨hp.1, fun be hbe => ?_⟩, rfl, fun _ z hz => ?_⟩
    · rcases List.mem_append.1 hbe with hbe | hbe
      · exact hp.2 be hbe
      · rw [List.mem_singleton] at hbe; subst hbe; exact ⟨good_int.2 hb, good_int.2 hx⟩
    · rw [← cpow_intCast]
      exact append_ok hbe hb0' (eval_int ρ _) hz
  | some e0 =>
    simp only [hf] at h
    cases hu : K.add [e0, .int (if positive then (f.exponent : Int) else -f.exponent)] with
    | error e => simp [hu] at h
    | ok u =>
      simp only [hu, Except.ok.injEq] at h
      subst h
      obtain ⟨h1, h2⟩ := bump_ok hK hp.2 hf (int_ok hx) hu hbe hb0'
      refine ⟨⟨hp.1, h1⟩, rfl, fun hl z hz => ?_⟩
      rw [← cpow_intCast]
      exact h2 hl z hz

theorem factors_fit {a : Int} (ha64 : InI64 a) (ha0 : a ≠ 0) {factors : List PrimeFactor} (hf : computePrimeFactors a = .ok factors) :
    (factors.map (fun f => f.base ^ f.exponent)).prod = a ∧
    ∀ f ∈ factors, f.base ≠ 0 ∧ InI64 f.base ∧ InI64 (f.exponent : Int) ∧ InI64 (-f.exponent : Int) := by
  have hmin : a ≠ minI := by
    rintro rfl
    rw [C02_most_negative_raises] at hf
    cases hf
  have hpf : IsPrimeFactorization factors a := by
    rcases C02_factorization_or_undefined a ha64 ha0 hmin with ⟨_, _, hu⟩ | ⟨l, hl, hp⟩
    · rw [hf] at hu; simp at hu
    · rw [hf] at hl; simp only [Except.ok.injEq] at hl; rw [hl]; exact hp
  refine ⟨hpf.prod, fun f hfm => ?_⟩
  rcases hpf.primes f hfm with ⟨h1, h2, _⟩ | ⟨p, hp, hbp⟩
  · rw [h1, h2]
    exact ⟨by decide, inI64_small (by decide) (by decide), inI64_small (by decide) (by decide), inI64_small (by decide) (by decide)⟩
  · have hdvd : f.base ^ f.exponent ∣ a := by
      rw [← hpf.prod]
      exact List.dvd_prod (List.mem_map_of_mem hfm)
    have hle : f.base ^ f.exponent ≤ |a| := Int.le_of_dvd (abs_pos.2 ha0) ((dvd_abs _ _).2 hdvd)
    have hb2 : 2 ≤ f.base := by rw [hbp]; exact_mod_cast hp.two_le
    have hexp := hpf.exponents f hfm
    have hself : f.base ≤ f.base ^ f.exponent := le_self_pow₀ (by omega) (by omega)
    have h2e : (2 : Int) ^ f.exponent ≤ f.base ^ f.exponent := pow_le_pow_left₀ (by norm_num) hb2 _
    have hlt : (f.exponent : Int) < 2 ^ f.exponent := by exact_mod_cast Nat.lt_two_pow_self
    have ha' := (InI64_iff a).mp ha64
    have habs : |a| ≤ 9223372036854775807 := by
      have hm : a ≠ -9223372036854775808 := hmin
      rw [abs_le]
      constructor <;> omega
    refine ⟨by omega, ?_, ?_, ?_⟩ <;> rw [InI64_iff] <;> omega

theorem insertFactorList_ok (hK : Sound lic ρ K) {positive : Bool} : ∀ {fs : List PrimeFactor} {p q : MulParts F}, p.Fine →
    (∀ f ∈ fs, f.base ≠ 0 ∧ InI64 f.base ∧ InI64 (f.exponent : Int) ∧ InI64 (-f.exponent : Int)) → foldRes (insertFactor K positive) p fs = .ok q →
    q.Fine ∧ q.coeff = p.coeff ∧ (lic.TrueAt ρ → ∀ z, prodO (p.terms.map (entryVal ρ)) = some z → prodO (q.terms.map (entryVal ρ)) =
      some (z * (((fs.map (fun f => f.base ^ f.exponent)).prod : Int) : ℂ) ^ (if positive then (1 : Int) else -1)))
  | [], p, q, hp, _, h => by
    cases h
    exact ⟨hp, rfl, fun _ z hz => by simp [hz]⟩
  | f :: fs, p, q, hp, hf, h => by
    unfold foldRes at h
    cases h1 : insertFactor K positive p f with
    | error e => simp [h1] at h
    | ok p1 =>
      simp only [h1] at h
      obtain ⟨g0, g1, g2, g3⟩ := hf f (by simp)
      obtain ⟨a1, a2, a3⟩ := insertFactor_ok hK hp g1 g0 (by split <;> assumption) h1
      obtain ⟨b1, b2, b3⟩ := insertFactorList_ok hK a1 (fun x hx => hf x (by simp [hx])) h
      refine ⟨b1, b2.trans a2, fun hl z hz => ?_⟩
      rw [b3 hl _ (a3 hl z hz), List.map_cons, List.prod_cons]
      push_cast
      rw [mul_zpow, mul_assoc]
      congr 2
      cases positive
      · simp
      · simp

theorem insertFactors_ok (hK : Sound lic ρ K) {positive : Bool} {p q : MulParts F} {n : Int} (hp : p.Fine) (hn : InI64 n) (h0 : n ≠ 0)
    (h : insertFactors K positive p n = .ok q) :
    q.Fine ∧ q.coeff = p.coeff ∧ (lic.TrueAt ρ → ∀ z, prodO (p.terms.map (entryVal ρ)) = some z →
      prodO (q.terms.map (entryVal ρ)) = some (z * (n : ℂ) ^ (if positive then (1 : Int) else -1))) := by
  unfold insertFactors at h
  cases hf : computePrimeFactors n with
  | error e => simp [hf] at h
  | ok fs =>
    simp only [hf] at h
    obtain ⟨h1, h2⟩ := factors_fit hn h0 hf
    have := insertFactorList_ok hK (positive := positive) hp h2 h
    rwa [h1] at this

theorem over_insertFactors {P : Head F → List (Expr F) → Prop} (hP : Basic P) (hK : Closed P K) {positive : Bool} {p q : MulParts F} {n : Int}
    (hp : OverT P p.terms) (h : insertFactors K positive p n = .ok q) : OverT P q.terms := by
  unfold insertFactors at h
  cases hf : computePrimeFactors n with
  | error e => simp [hf] at h
  | ok fs =>
    simp only [hf] at h
    refine overT_fold (Q := fun p : MulParts F => OverT P p.terms) (R := fun _ => True) (fun s a s1 hs _ h => ?_) hp (fun _ _ => trivial) h
    unfold insertFactor at h
    split at h
    · cases h; exact overT_append hs (hP.oint _) (hP.oint _)
    · rename_i e0 he
      have h3 := overT_find hs he
      split at h
      · cases h
      · rename_i u hu
        cases h
        exact h3.2.2 u (hK.add _ _ (by simpa using ⟨h3.1, hP.oint _⟩) hu)

/-! ## Parts of a product with factored integers -/

theorem over_mulTermF {P : Head F → List (Expr F) → Prop} (hP : Basic P) (hK : Closed P K) (p : MulParts F) (t : Expr F) (q : MulParts F)
    (hp : OverT P p.terms) (ht : Over P t) (h : mulTermF K lic p t = .ok q) : OverT P q.terms := by
  unfold mulTermF at h
  split at h
  · exact over_insertFactors hP hK hp h
  · split at h
    · cases h
    · rename_i hq
      exact over_insertFactors hP hK (over_insertFactors hP hK hp hq) h
  · exact over_mulTerm hP hK p _ q hp ht h

/-- The constructors with the visitor that factors integers. -/
abbrev Ctors.factored (K : Ctors F) (lic : Lic F) (n : Nat) : Ctors F := { K with visit := visitF K lic n }

theorem closed_factored {P : Head F → List (Expr F) → Prop} (hP : Basic P) (hK : Closed P K) : ∀ n, Closed P (K.factored lic n)
  | 0 => ⟨hK.add, hK.mul, hK.pow, fun _ _ _ _ _ h => by cases h⟩
  | n + 1 => ⟨hK.add, hK.mul, hK.pow, fun p t q hp ht h =>
      overT_fold (Q := fun p : MulParts F => OverT P p.terms) (R := Over P) (fun s a s1 => over_mulTermF hP (closed_factored hP hK n) s a s1) hp
        (over_flatMul hP t ht) h⟩

theorem powSimplify_factored (n : Nat) (b e : Expr F) : powSimplify (K.factored lic n) lic b e = powSimplify K lic b e := rfl

open Classical in
/-- The constructors with the visitor that factors integers, used only where no factor is zero. -/
noncomputable def Ctors.factoredNZ (K : Ctors F) (lic : Lic F) (n : Nat) : Ctors F :=
  { K with visit := fun p t => if OverT Head.noZero p.terms ∧ PlainNZ t ∧ t ≠ .int 0 then visitF K lic n p t else K.visit p t }

open Classical in
theorem mergePower_factored (hC : Closed Head.noZero K) {n : Nat} {p : MulParts F} {b u : Expr F} {e0 : Expr F} (hp : OverT Head.noZero p.terms)
    (hf : findKey b p.terms = some e0) (hb : PlainNZ b) (hu : PlainNZ u) :
    mergePower (K.factored lic n) lic p b u = mergePower (K.factoredNZ lic n) lic p b u := by
  unfold mergePower
  by_cases h1 : isMulOrPow b = true
  · rw [if_pos h1, if_pos h1]
    rw [show powSimplify (K.factoredNZ lic n) lic b u = powSimplify K lic b u from rfl, show powSimplify (K.factored lic n) lic b u = powSimplify K lic b u from rfl]
    cases hs : powSimplify K lic b u with
    | error e => rfl
    | ok o =>
      cases o with
      | none => rfl
      | some r =>
        simp only
        by_cases h2 : isMulOrPow r = true
        · rw [if_pos h2, if_pos h2]
          show visitF K lic n _ r = (if _ then visitF K lic n _ r else _)
          rw [if_pos]
          refine ⟨(overT_find hp hf).2.1, over_powSimplify noZero_basic hC hb hu hs, ?_⟩
          rintro rfl
          cases h2
        · rw [if_neg h2, if_neg h2]
  · rw [if_neg h1, if_neg h1]

theorem insertPower_factored (hC : Closed Head.noZero K) {n : Nat} {p : MulParts F} {b e : Expr F} (hp : OverT Head.noZero p.terms)
    (hb : PlainNZ b) (he : PlainNZ e) : insertPower (K.factored lic n) lic p b e = insertPower (K.factoredNZ lic n) lic p b e := by
  unfold insertPower
  cases hf : findKey b p.terms with
  | none => rfl
  | some e0 =>
    simp only
    rw [show (K.factoredNZ lic n).add [e0, e] = K.add [e0, e] from rfl]
    cases hu : K.add [e0, e] with
    | error x => rfl
    | ok u => exact mergePower_factored hC hp hf hb (hC.add _ _ (by simpa using ⟨(overT_find hp hf).1, he⟩) hu)

theorem mulTerm_factored (hC : Closed Head.noZero K) {n : Nat} {p : MulParts F} {t : Expr F} (hp : OverT Head.noZero p.terms) (ht : PlainNZ t) :
    mulTerm (K.factored lic n) lic p t = mulTerm (K.factoredNZ lic n) lic p t := by
  unfold mulTerm
  split
  · rfl
  · split
    · rename_i b e _
      obtain ⟨h1, h2⟩ := (noZero_basic (F := F)).opow.1 ht
      exact insertPower_factored hC hp h1 h2
    · exact insertPower_factored hC hp (noZero_basic.oconst _) ((over_node.1 ht).2 _ (by simp))
    · exact insertPower_factored hC hp ht (noZero_basic.oint 1)

theorem rat_num_ne {r : RatC} (h : Good (.rat r : Expr F)) : r.n ≠ 0 := by
  intro h0
  obtain ⟨hc, hd⟩ := good_rat.1 h
  have h1 := hc.2.2.2
  rw [h0, Int.gcd_zero_left] at h1
  have := hc.2.2.1
  omega

/-- What a visit of an operand does to the parts. -/
def TermOk (lic : Lic F) (ρ : Env F) (p q : MulParts F) (v : Option ℂ) : Prop :=
  q.Fine ∧ (lic.TrueAt ρ → ∀ z, mulO (p.val ρ) v = some z → q.val ρ = some z)

open Classical in
theorem mulTermF_ok (hK : Sound lic ρ K) (hC : Closed Head.noZero K) {n : Nat}
    (hV : ∀ p t q, p.Fine → OverT Head.noZero p.terms → Good t → PlainNZ t → t ≠ .int 0 → visitF K lic n p t = .ok q → TermOk lic ρ p q (eval ρ t))
    {p q : MulParts F} {t : Expr F} (hp : p.Fine) (hpo : OverT Head.noZero p.terms) (ht : Good t) (hto : PlainNZ t) (ht0 : t ≠ .int 0)
    (h : mulTermF (K.factored lic n) lic p t = .ok q) : TermOk lic ρ p q (eval ρ t) := by
  have hS : Sound lic ρ (K.factoredNZ lic n) := by
    refine ⟨hK.add, hK.mul, hK.pow, fun p t q hp ht h => ?_⟩
    change (if _ then visitF K lic n p t else K.visit p t) = .ok q at h
    split at h
    · rename_i hc
      exact hV p t q hp hc.1 ht hc.2.1 hc.2.2 h
    · exact hK.visit p t q hp ht h
  have hKf : insertFactors (K.factored lic n) = insertFactors K := rfl
  unfold mulTermF at h
  split at h
  · rename_i a
    rw [hKf] at h
    obtain ⟨h1, h2, h3⟩ := insertFactors_ok hK hp (good_int.1 ht) (by rintro rfl; exact ht0 rfl) h
    refine ⟨h1, fun hl z hz => ?_⟩
    rw [mulO_eq_some] at hz
    obtain ⟨x, y, hx, hy, rfl⟩ := hz
    rw [MulParts.val_eq, mulO_eq_some] at hx ⊢
    obtain ⟨c, w, hc, hw, rfl⟩ := hx
    rw [eval_int, Option.some.injEq] at hy
    refine ⟨c, _, by rw [h2]; exact hc, h3 hl w hw, ?_⟩
    rw [if_pos rfl, zpow_one, hy]; ring
  · rename_i r
    rw [hKf] at h
    cases h1 : insertFactors K true p r.n with
    | error e => simp [h1] at h
    | ok p1 =>
      simp only [h1] at h
      obtain ⟨hr, hd⟩ := good_rat.1 ht
      obtain ⟨a1, a2, a3⟩ := insertFactors_ok hK hp hr.1 (rat_num_ne ht) h1
      obtain ⟨b1, b2, b3⟩ := insertFactors_ok hK a1 hr.2.1 hr.2.2.1.ne' h
      refine ⟨b1, fun hl z hz => ?_⟩
      rw [mulO_eq_some] at hz
      obtain ⟨x, y, hx, hy, rfl⟩ := hz
      rw [MulParts.val_eq, mulO_eq_some] at hx ⊢
      obtain ⟨c, w, hc, hw, rfl⟩ := hx
      rw [eval_rat, Option.some.injEq] at hy
      refine ⟨c, _, by rw [b2, a2]; exact hc, b3 hl _ (a3 hl w hw), ?_⟩
      rw [if_pos rfl, if_neg (by simp), zpow_one, zpow_neg_one, ← hy, RatC.val]
      push_cast
      ring
  · rw [mulTerm_factored hC hpo hto] at h
    exact mulTerm_ok hS hp ht h

theorem visitF_ok (hK : Sound lic ρ K) (hC : Closed Head.noZero K) : ∀ (n : Nat) (p : MulParts F) (t : Expr F) (q : MulParts F), p.Fine →
    OverT Head.noZero p.terms → Good t → PlainNZ t → t ≠ .int 0 → visitF K lic n p t = .ok q → TermOk lic ρ p q (eval ρ t)
  | 0, _, _, _, _, _, _, _, _, h => by cases h
  | n + 1, p, t, q, hp, hpo, ht, hto, ht0, h => by
    have key : ∀ (ts : List (Expr F)) (p q : MulParts F), p.Fine → OverT Head.noZero p.terms → (∀ t ∈ ts, Good t ∧ PlainNZ t ∧ t ≠ .int 0) →
        foldRes (mulTermF (K.factored lic n) lic) p ts = .ok q → TermOk lic ρ p q (prodO (ts.map (eval ρ))) := by
      intro ts
      induction ts with
      | nil =>
        intro p q hp _ _ h
        cases h
        exact ⟨hp, fun _ z hz => by simpa using hz⟩
      | cons t ts ih =>
        intro p q hp hpo ht h
        unfold foldRes at h
        cases h1 : mulTermF (K.factored lic n) lic p t with
        | error e => simp [h1] at h
        | ok p1 =>
          simp only [h1] at h
          obtain ⟨g1, g2, g3⟩ := ht t (by simp)
          have a := mulTermF_ok hK hC (visitF_ok hK hC n) hp hpo g1 g2 g3 h1
          have b := over_mulTermF noZero_basic (closed_factored noZero_basic hC n) p t p1 hpo g2 h1
          have c := ih p1 q a.1 b (fun u hu => ht u (by simp [hu])) h
          refine ⟨c.1, fun hl z hz => c.2 hl z ?_⟩
          rw [List.map_cons, prodO_cons, ← mulO_assoc, mulO_eq_some] at hz
          obtain ⟨x, y, hx, hy, rfl⟩ := hz
          rw [a.2 hl x hx, hy]; rfl
    have := key (flatMul t) p q hp hpo (fun u hu => ⟨flatMul_good t ht u hu, over_flatMul noZero_basic t hto u hu, flatMul_nonzero t hto ht0 u hu⟩) h
    rwa [flatMul_prod] at this

/-- The parts of a product whose integers are factored have the value of the product. -/
theorem mulPartsOf_ok (hK : Sound lic ρ K) (hC : Closed Head.noZero K) {m : Nat} {ts : List (Expr F)} {p : MulParts F}
    (hg : ∀ t ∈ ts, Good t ∧ PlainNZ t ∧ t ≠ .int 0) (h : mulPartsOf K lic m ts = .ok p) :
    p.Fine ∧ OverT Head.noZero p.terms ∧ (lic.TrueAt ρ → ∀ z, prodO (ts.map (eval ρ)) = some z → p.val ρ = some z) := by
  unfold mulPartsOf at h
  cases hf : foldRes (visitF K lic m) ⟨.int 1, []⟩ ts with
  | error e => simp [hf] at h
  | ok q =>
    simp only [hf, Except.ok.injEq] at h
    subst h
    have key : ∀ (ts : List (Expr F)) (p q : MulParts F), p.Fine → OverT Head.noZero p.terms → (∀ t ∈ ts, Good t ∧ PlainNZ t ∧ t ≠ .int 0) →
        foldRes (visitF K lic m) p ts = .ok q → TermOk lic ρ p q (prodO (ts.map (eval ρ))) ∧ OverT Head.noZero q.terms := by
      intro ts
      induction ts with
      | nil =>
        intro p q hp hpo _ h
        cases h
        exact ⟨⟨hp, fun _ z hz => by simpa using hz⟩, hpo⟩
      | cons t ts ih =>
        intro p q hp hpo ht h
        unfold foldRes at h
        cases h1 : visitF K lic m p t with
        | error e => simp [h1] at h
        | ok p1 =>
          simp only [h1] at h
          obtain ⟨g1, g2, g3⟩ := ht t (by simp)
          have a := visitF_ok hK hC m p t p1 hp hpo g1 g2 g3 h1
          have b := (closed_factored (lic := lic) noZero_basic hC m).visit p t p1 hpo g2 h1
          obtain ⟨c, d⟩ := ih p1 q a.1 b (fun u hu => ht u (by simp [hu])) h
          refine ⟨⟨c.1, fun hl z hz => c.2 hl z ?_⟩, d⟩
          rw [List.map_cons, prodO_cons, ← mulO_assoc, mulO_eq_some] at hz
          obtain ⟨x, y, hx, hy, rfl⟩ := hz
          rw [a.2 hl x hx, hy]; rfl
    obtain ⟨⟨h1, h2⟩, h3⟩ := key ts _ q mulFine_one (by simp [OverT]) hg hf
    refine ⟨⟨h1.1, fun be hbe => h1.2 be (List.mem_filter.1 hbe).1⟩, fun be hbe => h3 be (List.mem_filter.1 hbe).1, fun hl z hz => ?_⟩
    have h4 := h2 hl z (by rw [hz]; simp [MulParts.val, Coeff.val, mulO])
    rw [MulParts.val_eq, mulO_eq_some] at h4
    obtain ⟨c, w, hc, hw, rfl⟩ := h4
    show mulO q.coeff.val (prodO ((q.terms.filter (fun be => !isInt 0 be.2)).map (entryVal ρ))) = _
    rw [hc, prodO_filter (entryVal ρ) (fun be => !isInt 0 be.2) q.terms w ?_ hw]
    · rfl
    · intro be _ hbe v hv
      have h0 : isInt 0 be.2 = true := by simpa using hbe
      rw [entryVal, isInt_iff.1 h0, eval_int, powO_eq_some] at hv
      obtain ⟨a, b, _, hb, hv⟩ := hv
      cases hb
      exact powVal_zero (by simpa using hv)

/-! ## The coefficient of factored parts -/

/-- The coefficients that parts with factored integers can have. -/
def Coeff.unitLike (c : Coeff F) : Prop := c = .int 1 ∨ c = .int 0 ∨ c.isFlt = true ∨ c = .undef ∨ c = .zoo

theorem fltCoeff_unitLike (f : F) : (fltCoeff f).unitLike := by
  unfold fltCoeff
  split
  · exact .inr (.inl rfl)
  · exact .inr (.inr (.inl rfl))

theorem mulCoeff_unitLike {a b c : Coeff F} (ha : a.unitLike) (hb : b.isFlt = true ∨ b = .undef ∨ b = .zoo) (h : mulCoeff a b = .ok c) : c.unitLike := by
  have hu : (Coeff.undef : Coeff F).unitLike := .inr (.inr (.inr (.inl rfl)))
  have hz : (Coeff.zoo : Coeff F).unitLike := .inr (.inr (.inr (.inr rfl)))
  have hite : ∀ (p : Prop) [Decidable p], (if p then Coeff.undef else Coeff.zoo : Coeff F).unitLike := by
    intro p _
    split
    · exact hu
    · exact hz
  cases b with
  | int n => rcases hb with hb | hb | hb <;> cases hb
  | rat n => rcases hb with hb | hb | hb <;> cases hb
  | flt f =>
    cases a <;> simp only [mulCoeff, Except.ok.injEq] at h <;> subst h <;> first | exact fltCoeff_unitLike _ | exact hu | exact hite _
  | undef => cases a <;> simp only [mulCoeff, Except.ok.injEq] at h <;> subst h <;> exact hu
  | zoo => cases a <;> simp only [mulCoeff, Except.ok.injEq] at h <;> subst h <;> first | exact hu | exact hz | exact hite _

theorem insertFactors_coeff {positive : Bool} {p q : MulParts F} {n : Int} (h : insertFactors K positive p n = .ok q) : q.coeff = p.coeff := by
  unfold insertFactors at h
  split at h
  · cases h
  · refine overT_fold (Q := fun q : MulParts F => q.coeff = p.coeff) (R := fun _ => True) (fun s a s1 hs _ h => ?_) rfl (fun _ _ => trivial) h
    unfold insertFactor at h
    split at h
    · cases h; exact hs
    · split at h
      · cases h
      · cases h; exact hs

theorem insertPower_unitLike {p q : MulParts F} {b e : Expr F} (hV : ∀ p t q, p.coeff.unitLike → K.visit p t = .ok q → q.coeff.unitLike)
    (hp : p.coeff.unitLike) (h : insertPower K lic p b e = .ok q) : q.coeff.unitLike := by
  unfold insertPower at h
  split at h
  · cases h; exact hp
  · split at h
    · cases h
    · unfold mergePower at h
      split at h
      · split at h
        · cases h
        · split at h
          · exact hV _ _ _ (by exact hp) h
          · cases h; exact hp
        · cases h; exact hp
      · cases h; exact hp

theorem visitF_unitLike : ∀ (n : Nat) (p : MulParts F) (t : Expr F) (q : MulParts F), p.coeff.unitLike → visitF K lic n p t = .ok q → q.coeff.unitLike
  | 0, _, _, _, _, h => by cases h
  | n + 1, p, t, q, hp, h => by
    refine overT_fold (Q := fun p : MulParts F => p.coeff.unitLike) (R := fun _ => True) (fun s a s1 hs _ h => ?_) hp (fun _ _ => trivial) h
    have hV : ∀ p t q, p.coeff.unitLike → (K.factored lic n).visit p t = .ok q → q.coeff.unitLike := visitF_unitLike n
    change mulTermF (K.factored lic n) lic s a = .ok s1 at h
    unfold mulTermF at h
    split at h
    · rw [insertFactors_coeff h]; exact hs
    · split at h
      · cases h
      · rename_i hq
        rw [insertFactors_coeff h, insertFactors_coeff hq]; exact hs
    · rename_i hi hr
      unfold mulTerm at h
      split at h
      · rename_i c hc
        split at h
        · cases h
        · rename_i c' hc'
          cases h
          refine mulCoeff_unitLike hs ?_ hc'
          rcases ofExpr_cases hc with ⟨k, rfl, rfl⟩ | ⟨k, rfl, rfl⟩ | ⟨f, rfl, rfl⟩ | ⟨rfl, rfl⟩ | ⟨rfl, rfl⟩
          · exact absurd rfl (hi k)
          · exact absurd rfl (hr k)
          · exact .inl rfl
          · exact .inr (.inl rfl)
          · exact .inr (.inr rfl)
      · split at h <;> exact insertPower_unitLike hV hs h

theorem mulPartsOf_unitLike {m : Nat} {ts : List (Expr F)} {p : MulParts F} (h : mulPartsOf K lic m ts = .ok p) : p.coeff.unitLike := by
  unfold mulPartsOf at h
  split at h
  · cases h
  · rename_i q hq
    cases h
    show q.coeff.unitLike
    exact overT_fold (f := visitF K lic m) (Q := fun p : MulParts F => p.coeff.unitLike) (R := fun _ => True)
      (fun s a s1 hs _ h => visitF_unitLike m s a s1 hs h) (.inl rfl) (fun _ _ => trivial) hq

/-! ## Products -/

theorem divE_good (hK : Sound lic ρ K) {a b q : Expr F} (ha : Good a) (hb : Good b) (h : divE K a b = .ok q) : Good q := by
  unfold divE at h
  split at h
  · cases h
  · rename_i p hp
    exact (hK.mul _ _ (by simpa using ⟨ha, (hK.pow _ _ _ hb (good_int.2 (inI64_small (by decide) (by decide))) hp).1⟩) h).1

theorem maxExponent_fits (hK : Sound lic ρ K) {it : List (Expr F × Expr F)} (hit : ∀ be ∈ it, Good be.1 ∧ Good be.2) : ∀ {tt : List (Expr F × Expr F)}
    {best : Option Int} {k : Int}, (∀ be ∈ tt, Good be.1 ∧ Good be.2) → (∀ b, best = some b → InI64 b) → maxExponent K it best tt = .ok (some (some k)) → InI64 k
  | [], best, k, _, hb, h => by
    simp only [maxExponent, Except.ok.injEq, Option.some.injEq] at h
    exact hb k h
  | (b, x) :: tt, best, k, ht, hb, h => by
    unfold maxExponent at h
    split at h
    · cases h
    · rename_i e he
      split at h
      · cases h
      · rename_i q hq
        have hgq := divE_good hK (hit _ (findKey_mem he)).2 (ht (b, x) (by simp)).2 hq
        split at h
        · cases h
        · cases h
        · rename_i k1 hk1
          have h1 : InI64 k1 := by
            unfold wholePart at hk1
            split at hk1
            · cases hk1; exact good_int.1 hgq
            · split at hk1
              · cases hk1
              · rename_i w hw
                cases hk1
                exact (ratNormalized_val (good_rat.1 hgq).1 hw).1
            · cases hk1
          split at h
          · cases h
          · rename_i k2 hk2
            refine maxExponent_fits hK hit (fun be hbe => ht be (by simp [hbe])) (fun b' hb' => ?_) h
            cases hb'
            unfold smaller at hk2
            split at hk2
            · cases hk2; exact h1
            · rename_i b0
              split at hk2
              · cases hk2
              · split at hk2
                · cases hk2
                · cases hk2
                  split
                  · exact h1
                  · exact hb b0 rfl

theorem deduct_ok (hK : Sound lic ρ K) {k : Int} {it it' : List (Expr F × Expr F)} {bx : Expr F × Expr F} (hk : InI64 k)
    (hit : ∀ be ∈ it, Good be.1 ∧ Good be.2) (hbx : Good bx.1 ∧ Good bx.2) (h : deduct K k it bx = .ok it') :
    (∀ be ∈ it', Good be.1 ∧ Good be.2) ∧ (lic.TrueAt ρ → ∀ z w, prodO (it.map (entryVal ρ)) = some z → entryVal ρ bx = some w → w ≠ 0 →
      prodO (it'.map (entryVal ρ)) = some (z * w ^ (-k))) := by
  unfold deduct at h
  split at h
  · cases h
  · rename_i e he
    split at h
    · cases h
    · rename_i xk hxk
      split at h
      · cases h
      · rename_i e' he'
        cases h
        have h1 := mul2_ok hK (self_ok bx.2 hbx.2) (int_ok hk) hxk
        have h2 := subE_ok hK (self_ok e (hit _ (findKey_mem he)).2) h1 he'
        refine ⟨(good_find hit he h2.1).2.2, fun hl z w hz hw hw0 => ?_⟩
        obtain ⟨rest, u, hu, rfl, hset⟩ := prodO_find he hz
        rw [entryVal, powO_eq_some] at hw hu
        obtain ⟨b, x, hb, hx, hw⟩ := hw
        obtain ⟨b', ev, hb', hev, hu⟩ := hu
        dsimp only at hb' hev
        rw [hb] at hb'
        cases hb'
        have hb0 : b ≠ 0 := by
          rcases powVal_cases hw with ⟨h, _⟩ | ⟨_, _, h⟩
          · exact h
          · exact absurd h hw0
        rw [powVal_of_ne hb0, Option.some.injEq] at hw hu
        have h3 := h2.2 hl (ev + -(x * k)) (by rw [hev, hx]; rfl)
        rw [hset e' (b ^ (ev + -(x * k))) (by rw [entryVal, hb, h3, powO_some, powVal_of_ne hb0]), ← hw, ← hu, cpow_add _ _ hb0, mul_assoc,
          show -(x * (k : ℂ)) = x * ((-k : ℤ) : ℂ) by push_cast; ring, cpow_mul_int]

theorem deducts_ok (hK : Sound lic ρ K) {k : Int} (hk : InI64 k) : ∀ {tt it it' : List (Expr F × Expr F)}, (∀ be ∈ it, Good be.1 ∧ Good be.2) →
    (∀ be ∈ tt, Good be.1 ∧ Good be.2) → foldRes (deduct K k) it tt = .ok it' →
    (∀ be ∈ it', Good be.1 ∧ Good be.2) ∧ (lic.TrueAt ρ → ∀ z w, prodO (it.map (entryVal ρ)) = some z → prodO (tt.map (entryVal ρ)) = some w → w ≠ 0 →
      prodO (it'.map (entryVal ρ)) = some (z * w ^ (-k)))
  | [], it, it', hit, _, h => by
    cases h
    refine ⟨hit, fun _ z w hz hw _ => ?_⟩
    simp only [List.map_nil, prodO_nil, Option.some.injEq] at hw
    rw [hz, ← hw]; simp
  | bx :: tt, it, it', hit, htt, h => by
    unfold foldRes at h
    cases h1 : deduct K k it bx with
    | error e => simp [h1] at h
    | ok it1 =>
      simp only [h1] at h
      obtain ⟨a1, a2⟩ := deduct_ok hK hk hit (htt bx (by simp)) h1
      obtain ⟨b1, b2⟩ := deducts_ok hK hk a1 (fun be hbe => htt be (by simp [hbe])) h
      refine ⟨b1, fun hl z w hz hw hw0 => ?_⟩
      rw [List.map_cons, prodO_cons_some] at hw
      obtain ⟨x, y, hx, hy, rfl⟩ := hw
      rw [b2 hl _ y (a2 hl z x hz hx (left_ne_zero_of_mul hw0)) hy (right_ne_zero_of_mul hw0), mul_zpow, mul_assoc]

theorem insertReplacement_ok (hK : Sound lic ρ K) {k : Int} {s : Expr F} {it it' : List (Expr F × Expr F)} (hk : InI64 k) (hs : Good s)
    (hit : ∀ be ∈ it, Good be.1 ∧ Good be.2) (h : insertReplacement K k s it = .ok it') :
    (∀ be ∈ it', Good be.1 ∧ Good be.2) ∧ (lic.TrueAt ρ → ∀ z v, prodO (it.map (entryVal ρ)) = some z → eval ρ s = some v → v ≠ 0 →
      prodO (it'.map (entryVal ρ)) = some (z * v ^ k)) := by
  unfold insertReplacement at h
  cases hf : findKey s it with
  | none =>
    simp only [hf, Except.ok.injEq] at h
    subst h
    refine ⟨fun be hbe => ?_, fun _ z v hz hv hv0 => ?_⟩
    · rcases List.mem_append.1 hbe with hbe | hbe
      · exact hit be hbe
      · rw [List.mem_singleton] at hbe; subst hbe; exact ⟨hs, good_int.2 hk⟩
    · rw [← cpow_intCast]
      exact append_ok hv hv0 (eval_int ρ _) hz
  | some e =>
    simp only [hf] at h
    cases hu : K.add [e, .int k] with
    | error x => simp [hu] at h
    | ok u =>
      simp only [hu, Except.ok.injEq] at h
      subst h
      have h1 := add2_ok hK (self_ok e (hit _ (findKey_mem hf)).2) (int_ok hk) hu
      refine ⟨(good_find hit hf h1.1).2.2, fun hl z v hz hv hv0 => ?_⟩
      rw [← cpow_intCast]
      exact (bump_ok hK hit hf (int_ok hk) hu hv hv0).2 hl z hz

/-- The partial replacement of a product keeps the value, if the value of the target is not zero. -/
theorem mulPartial_ok (hK : Sound lic ρ K) (hC : Closed Head.noZero K) {m : Nat} {ts cs : List (Expr F)} {s r : Expr F} {v : ℂ}
    (hts : Good (.mul ts) ∧ PlainNZ (.mul ts)) (hcs : Good (.mul cs) ∧ PlainNZ (.mul cs)) (hs : Good s)
    (hf : ∀ tp, mulPartsOf K lic m ts = .ok tp → tp.coeff.isFlt = false) (hv : eval ρ (.mul ts) = some v) (hv0 : v ≠ 0) (hsv : eval ρ s = some v)
    (h : mulPartial K lic m ts s cs = .ok r) : FnOk lic ρ r (eval ρ (.mul cs)) := by
  have hself : FnOk lic ρ (.mul cs) (eval ρ (.mul cs)) := self_ok _ hcs.1
  have factors : ∀ {ts : List (Expr F)}, Good (.mul ts) ∧ PlainNZ (.mul ts) → ∀ t ∈ ts, Good t ∧ PlainNZ t ∧ t ≠ .int 0 := fun h t ht =>
    ⟨(good_node.1 h.1).2 t ht, (over_node.1 h.2).2 t ht, (over_node.1 h.2).1.2 rfl t ht⟩
  unfold mulPartial at h
  cases h1 : mulPartsOf K lic m ts with
  | error e => simp [h1] at h
  | ok tp =>
    simp only [h1] at h
    cases h2 : mulPartsOf K lic m cs with
    | error e => simp [h2] at h
    | ok ip =>
      simp only [h2] at h
      have hf' := hf tp h1
      obtain ⟨ht1, _, ht2⟩ := mulPartsOf_ok hK hC (factors hts) h1
      obtain ⟨hi1, _, hi2⟩ := mulPartsOf_ok hK hC (factors hcs) h2
      cases h3 : leftCoeff 1 ip.coeff tp.coeff with
      | none => simp only [h3, Except.ok.injEq] at h; subst h; exact hself
      | some c =>
        simp only [h3] at h
        obtain rfl := leftCoeff_exact hf' h3
        split at h
        · cases h
        · cases h; exact hself
        · cases h
        · rename_i k hk
          have hk64 := maxExponent_fits hK hi1.2 ht1.2 (by simp) hk
          unfold finishMulPartial at h
          split at h
          · cases h
          · rename_i it1 hit1
            split at h
            · cases h
            · rename_i it2 hit2
              obtain ⟨a1, a2⟩ := deducts_ok hK hk64 hi1.2 ht1.2 hit1
              obtain ⟨b1, b2⟩ := insertReplacement_ok hK hk64 hs a1 hit2
              obtain ⟨c1, c2⟩ := createProduct_ok hK (p := ⟨ip.coeff, it2⟩) ⟨hi1.1, b1⟩ h
              refine ⟨c1, fun hl z hz => c2 hl z ?_⟩
              have e1 := hi2 hl z (by rw [← eval_mul]; exact hz)
              have e2 := ht2 hl v (by rw [← eval_mul]; exact hv)
              rw [MulParts.val_eq, mulO_eq_some] at e1 e2
              obtain ⟨x, y, hx, hy, rfl⟩ := e1
              obtain ⟨x', y', hx', hy', rfl⟩ := e2
              have hone : x' = 1 := by
                rcases mulPartsOf_unitLike h1 with e | e | e | e | e
                · rw [e] at hx'; simpa [Coeff.val] using hx'.symm
                · rw [e] at hx'
                  have : x' = 0 := by simpa [Coeff.val] using hx'.symm
                  exact absurd this (left_ne_zero_of_mul hv0)
                · rw [hf'] at e; cases e
                · rw [e] at hx'; simp [Coeff.val] at hx'
                · rw [e] at hx'; simp [Coeff.val] at hx'
              subst hone
              rw [one_mul] at hv0 hsv
              have e3 := b2 hl _ y' (a2 hl y y' hy hy' hv0) hsv hv0
              rw [MulParts.val_eq, hx, e3, mulO_some, mul_assoc, ← zpow_add₀ hv0]
              simp

theorem over_mulPartial (hC : Closed Head.noZero K) {m : Nat} {ts cs : List (Expr F)} {s r : Expr F} (hts : PlainNZ (.mul ts))
    (hcs : PlainNZ (.mul cs)) (hs : PlainNZ s) (h : mulPartial K lic m ts s cs = .ok r) : PlainNZ r := by
  have parts : ∀ {ts : List (Expr F)} {p : MulParts F}, PlainNZ (.mul ts) → mulPartsOf K lic m ts = .ok p → OverT Head.noZero p.terms := by
    intro ts p ht h
    unfold mulPartsOf at h
    split at h
    · cases h
    · rename_i q hq
      cases h
      have h1 := overT_fold (Q := fun p : MulParts F => OverT Head.noZero p.terms) (R := PlainNZ)
        (fun s a s1 => (closed_factored (lic := lic) noZero_basic hC m).visit s a s1) (by simp [OverT]) (over_node.1 ht).2 hq
      exact fun be hbe => h1 be (List.mem_filter.1 hbe).1
  unfold mulPartial at h
  split at h
  · cases h
  · rename_i tp htp
    split at h
    · cases h
    · rename_i ip hip
      split at h
      · cases h; exact hcs
      · split at h
        · cases h
        · cases h; exact hcs
        · cases h
        · unfold finishMulPartial at h
          split at h
          · cases h
          · rename_i it1 hit1
            have h1 : OverT Head.noZero it1 := by
              refine overT_fold (Q := OverT Head.noZero) (R := fun be => Over Head.noZero be.1 ∧ Over Head.noZero be.2) (fun s a s1 hs ha h => ?_)
                (parts hcs hip) (parts hts htp) hit1
              unfold deduct at h
              split at h
              · cases h
              · rename_i e he
                split at h
                · cases h
                · rename_i xk hxk
                  split at h
                  · cases h
                  · rename_i e' he'
                    cases h
                    have h2 := overT_find hs he
                    exact h2.2.2 e' (over_subE noZero_basic hC h2.1 (hC.mul _ _ (by simpa using ⟨ha.2, noZero_basic.oint _⟩) hxk) he')
            split at h
            · cases h
            · rename_i it2 hit2
              refine over_createProduct noZero_basic hC ?_ h
              show OverT Head.noZero it2
              unfold insertReplacement at hit2
              split at hit2
              · cases hit2; exact overT_append h1 hs (noZero_basic.oint _)
              · rename_i e he
                split at hit2
                · cases hit2
                · rename_i u hu
                  cases hit2
                  have h2 := overT_find h1 he
                  exact h2.2.2 u (hC.add _ _ (by simpa using ⟨h2.1, noZero_basic.oint _⟩) hu)

end

end Wf.Sym
