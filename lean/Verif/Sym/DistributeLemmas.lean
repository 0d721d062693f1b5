import Verif.Sym.DistributeModel
import Verif.Sym.SubstituteLemmas

/-! # Distributing and collecting keep the value -/

namespace Wf.Sym
open Complex

variable {F : Type} [DecidableEq F] [FnSem F]

section
variable {lic : Lic F} {ρ : Env F} {K : Ctors F}

/-- A plain result with the given value. -/
def POk (lic : Lic F) (ρ : Env F) (r : Expr F) (v : Option ℂ) : Prop := Plain r ∧ FnOk lic ρ r v

/-- The visitor gives plain results and keeps the value. -/
def Keeps (lic : Lic F) (ρ : Env F) (R : Expr F → Res (Expr F)) : Prop := ∀ x r, Plain x → Good x → R x = .ok r → POk lic ρ r (eval ρ x)

abbrev PlainCtors (K : Ctors F) : Prop := Closed (fun h _ => h.plain = true) K

theorem POk.mono {r : Expr F} {v w : Option ℂ} (h : POk lic ρ r v) (hw : ∀ z, w = some z → v = some z) : POk lic ρ r w :=
  ⟨h.1, h.2.mono hw⟩

theorem POk.self {r : Expr F} (hp : Plain r) (hg : Good r) : POk lic ρ r (eval ρ r) := ⟨hp, hg, fun _ _ hz => hz⟩

theorem plain_int (n : Int) : Plain (.int n : Expr F) := plain_node.2 ⟨rfl, by simp⟩
theorem plain_rat (q : RatC) : Plain (.rat q : Expr F) := plain_node.2 ⟨rfl, by simp⟩

theorem mulP_ok (hK : Sound lic ρ K) (hC : PlainCtors K) {a b r : Expr F} {u v : Option ℂ} (ha : POk lic ρ a u) (hb : POk lic ρ b v)
    (h : K.mul [a, b] = .ok r) : POk lic ρ r (mulO u v) :=
  ⟨hC.mul _ _ (by simpa using ⟨ha.1, hb.1⟩) h, mul2_ok hK ha.2 hb.2 h⟩

theorem powP_ok (hK : Sound lic ρ K) (hC : PlainCtors K) {a b r : Expr F} {u v : Option ℂ} (ha : POk lic ρ a u) (hb : POk lic ρ b v)
    (h : K.pow a b = .ok r) : POk lic ρ r (powO u v) := by
  refine ⟨hC.pow _ _ _ ha.1 hb.1 h, (hK.pow _ _ _ ha.2.1 hb.2.1 h).1, fun hl z hz => (hK.pow _ _ _ ha.2.1 hb.2.1 h).2 hl z ?_⟩
  obtain ⟨x, y, rfl, rfl, hv⟩ := powO_eq_some.1 hz
  rw [ha.2.2 hl x rfl, hb.2.2 hl y rfl]; exact hv

theorem termsOf_sum (ρ : Env F) (e : Expr F) : sumO ((termsOf e).map (eval ρ)) = eval ρ e := by
  unfold termsOf
  split
  · exact (eval_add ρ _).symm
  · cases h : eval ρ e <;> simp [sumO, h]

theorem termsOf_good {e : Expr F} (hp : Plain e) (hg : Good e) : ∀ t ∈ termsOf e, Plain t ∧ Good t := by
  unfold termsOf
  split
  · exact fun t ht => ⟨(plain_node.1 hp).2 t ht, (good_node.1 hg).2 t ht⟩
  · simpa using ⟨hp, hg⟩

theorem sumO_pairs (f : Expr F → Option ℂ) (ys : List (Expr F)) {t : ℂ} (ht : sumO (ys.map f) = some t) (xs : List (Expr F)) :
    ∀ s, sumO (xs.map f) = some s →
    sumO ((xs.flatMap fun x => ys.map fun y => (x, y)).map fun p => mulO (f p.1) (f p.2)) = some (s * t) := by
  have row : ∀ (a : ℂ) (x : Expr F), f x = some a → ∀ ys : List (Expr F), ∀ t, sumO (ys.map f) = some t →
      sumO ((ys.map fun y => (x, y)).map fun p => mulO (f p.1) (f p.2)) = some (a * t) := by
    intro a x hx ys
    induction ys with
    | nil => intro t ht; simp [sumO] at ht ⊢; rw [← ht]; simp
    | cons y ys ih =>
      intro t ht
      rw [List.map_cons, sumO_cons_some] at ht
      obtain ⟨b, c, hb, hc, rfl⟩ := ht
      rw [List.map_cons, List.map_cons, sumO_cons, ih c hc, hx, hb, mulO_some, addO_some, mul_add]
  induction xs with
  | nil => intro s hs; simp [sumO] at hs ⊢; rw [← hs]; simp
  | cons x xs ih =>
    intro s hs
    rw [List.map_cons, sumO_cons_some] at hs
    obtain ⟨a, b, ha, hb, rfl⟩ := hs
    rw [List.flatMap_cons, List.map_append, sumO_append, row a x ha ys t ht, ih b hb, addO_some, add_mul]

theorem distTerm_ok (hK : Sound lic ρ K) (hC : PlainCtors K) {R : Expr F → Res (Expr F)} (hR : Keeps lic ρ R) {x y r : Expr F}
    (hx : Plain x ∧ Good x) (hy : Plain y ∧ Good y) (h : distTerm K R (x, y) = .ok r) : POk lic ρ r (mulO (eval ρ x) (eval ρ y)) := by
  unfold distTerm at h
  split at h
  · cases h
  · rename_i ts hm
    have h1 := mulP_ok hK hC (POk.self hx.1 hx.2) (POk.self hy.1 hy.2) hm
    split at h
    · have h2 := hR _ _ h1.1 h1.2.1 h
      exact ⟨h2.1, h2.2.1, fun hl z hz => h2.2.2 hl z (h1.2.2 hl z hz)⟩
    · cases h; exact h1
  · rename_i p hm
    cases h
    exact mulP_ok hK hC (POk.self hx.1 hx.2) (POk.self hy.1 hy.2) hm

theorem pok_sum {α : Type} {f : α → Option ℂ} {as : List α} {bs : List (Expr F)} (h : List.Forall₂ (fun a b => POk lic ρ b (f a)) as bs)
    (ht : lic.TrueAt ρ) (z : ℂ) (hz : sumO (as.map f) = some z) : sumO (bs.map (eval ρ)) = some z := by
  induction h generalizing z with
  | nil => exact hz
  | cons h1 _ ih =>
    rw [List.map_cons, sumO_cons] at hz ⊢
    obtain ⟨x, y, hx, hy, rfl⟩ := addO_eq_some.1 hz
    rw [h1.2.2 ht x hx, ih y hy]; rfl

theorem pok_all {α : Type} {f : α → Option ℂ} {as : List α} {bs : List (Expr F)} (h : List.Forall₂ (fun a b => POk lic ρ b (f a)) as bs) :
    ∀ b ∈ bs, Plain b ∧ Good b := by
  induction h with
  | nil => simp
  | cons h1 _ ih => simpa using ⟨⟨h1.1, h1.2.1⟩, by simpa using ih⟩

theorem distTwo_ok (hK : Sound lic ρ K) (hC : PlainCtors K) {R : Expr F → Res (Expr F)} (hR : Keeps lic ρ R) {a b r : Expr F} {u v : Option ℂ}
    (ha : POk lic ρ a u) (hb : POk lic ρ b v) (h : distTwo K R a b = .ok r) : POk lic ρ r (mulO u v) := by
  unfold distTwo at h
  split at h
  · cases h
  · rename_i ts hm
    have hf : List.Forall₂ (fun (p : Expr F × Expr F) c => POk lic ρ c (mulO (eval ρ p.1) (eval ρ p.2)))
        ((termsOf a).flatMap fun x => (termsOf b).map fun y => (x, y)) ts := by
      refine mapRes_forall hm fun p hp c hc => ?_
      simp only [List.mem_flatMap, List.mem_map] at hp
      obtain ⟨x, hx, y, hy, rfl⟩ := hp
      exact distTerm_ok hK hC hR (termsOf_good ha.1 ha.2.1 x hx) (termsOf_good hb.1 hb.2.1 y hy) hc
    have hall := pok_all hf
    have h1 := hK.add ts r (fun t ht => (hall t ht).2) h
    refine ⟨hC.add ts r (fun t ht => (hall t ht).1) h, h1.1, fun hl z hz => h1.2 hl z (pok_sum hf hl z ?_)⟩
    obtain ⟨x, y, rfl, rfl, rfl⟩ := mulO_eq_some.1 hz
    exact sumO_pairs (eval ρ) _ (by rw [termsOf_sum]; exact hb.2.2 hl y rfl) _ _ (by rw [termsOf_sum]; exact ha.2.2 hl x rfl)

theorem distMany_ok (hK : Sound lic ρ K) (hC : PlainCtors K) {R : Expr F → Res (Expr F)} (hR : Keeps lic ρ R) {vs : List (Expr F)} {us : List (Expr F)}
    {r : Expr F} (hu : List.Forall₂ (fun v u => POk lic ρ u (eval ρ v)) vs us) (h : distMany K R us = .ok r) :
    POk lic ρ r (prodO (vs.map (eval ρ))) := by
  induction hu generalizing r with
  | nil => cases h
  | @cons v u vs us h1 hu ih =>
    cases hu with
    | nil =>
      cases h
      exact h1.mono fun z hz => by simpa [prodO_cons] using hz
    | cons h2 hu =>
      unfold distMany at h
      split at h
      · cases h
      · rename_i t ht
        exact distTwo_ok hK hC hR h1 (ih ht) h

theorem distLoop_ok (hK : Sound lic ρ K) (hC : PlainCtors K) {R : Expr F → Res (Expr F)} (hR : Keeps lic ρ R) (fuel : Nat) :
    ∀ {k : Nat} {res base r : Expr F} {u v : Option ℂ}, POk lic ρ res u → POk lic ρ base v → distLoop K R fuel k res base = .ok r →
      POk lic ρ r (mulO u (v.map (· ^ k))) := by
  induction fuel with
  | zero => intro k res base r u v _ _ h; cases h
  | succ fuel ih =>
    intro k res base r u v hres hbase h
    unfold distLoop at h
    cases hb : distBit K R (k % 2 == 1) res base with
    | error e => simp [hb] at h
    | ok res' =>
      have h1 : POk lic ρ res' (mulO u (v.map (· ^ (k % 2)))) := by
        unfold distBit at hb
        by_cases ho : (k % 2 == 1) = true
        · rw [if_pos ho] at hb
          rw [show k % 2 = 1 by simpa using ho]
          refine (distTwo_ok hK hC hR hres hbase hb).mono fun z hz => ?_
          cases v <;> simpa using hz
        · rw [if_neg ho] at hb
          have : k % 2 = 0 := by
            have : k % 2 ≠ 1 := by simpa using ho
            omega
          cases hb
          rw [this]
          refine hres.mono fun z hz => ?_
          cases v with
          | none => cases u <;> simp [mulO] at hz
          | some y => cases u <;> simpa [mulO] using hz
      simp only [hb] at h
      by_cases hk : k / 2 = 0
      · rw [if_pos hk] at h
        cases h
        rwa [show k % 2 = k by omega] at h1
      · rw [if_neg hk] at h
        cases ht : distTwo K R base base with
        | error e => simp [ht] at h
        | ok base' =>
          simp only [ht] at h
          refine (ih h1 (distTwo_ok hK hC hR hbase hbase ht) h).mono fun z hz => ?_
          obtain ⟨x, y, rfl, hy, rfl⟩ := mulO_eq_some.1 hz
          cases v with
          | none => simp at hy
          | some y' =>
            simp only [Option.map_some, Option.some.injEq] at hy
            subst hy
            simp only [mulO_some, Option.map_some, Option.some.injEq]
            rw [← pow_two, ← pow_mul, mul_assoc, ← pow_add]
            congr 2
            omega

theorem distPower_ok (hK : Sound lic ρ K) (hC : PlainCtors K) {R : Expr F → Res (Expr F)} (hR : Keeps lic ρ R) {k : Nat} {base r : Expr F} {v : Option ℂ}
    (hb : POk lic ρ base v) (h : distPower K R base k = .ok r) : 0 < k ∧ POk lic ρ r (v.map (· ^ k)) := by
  unfold distPower at h
  by_cases hk : k = 0
  · rw [if_pos hk] at h; cases h
  · rw [if_neg hk] at h
    refine ⟨by omega, ?_⟩
    have one : POk lic ρ (.int 1) (some (1 : ℂ)) := ⟨plain_int 1, good_one, fun _ z hz => by rw [← hz]; simp⟩
    refine (distLoop_ok hK hC hR k one hb h).mono fun z hz => ?_
    rw [hz, mulO_some, one_mul]

theorem distSign_ok (hK : Sound lic ρ K) (hC : PlainCtors K) {n : Int} {d r : Expr F} {v : Option ℂ} (hd : POk lic ρ d v)
    (h : distSign K n d = .ok r) : POk lic ρ r (if 0 < n then v else powO v (some (-1))) := by
  unfold distSign at h
  by_cases hn : 0 < n
  · rw [if_pos hn] at h ⊢; cases h; exact hd
  · rw [if_neg hn] at h ⊢
    exact powP_ok hK hC hd ⟨plain_int _, good_negOne, fun _ z hz => by rw [← hz]; simp⟩ h

/-- An integer power is a product of equal factors, or the reciprocal of one. -/
theorem powVal_int_abs {x z : ℂ} {n : ℤ} (hn : n ≠ 0) (h : powVal x (n : ℂ) = some z) :
    (if 0 < n then some (x ^ n.natAbs) else powO (some (x ^ n.natAbs)) (some (-1))) = some z := by
  rcases powVal_cases h with ⟨hx, rfl⟩ | ⟨rfl, hr, rfl⟩
  · rw [cpow_intCast]
    split_ifs with hp
    · congr 1
      rw [← zpow_natCast]
      congr 1
      omega
    · rw [powO_some, powVal_of_ne (pow_ne_zero _ hx), cpow_neg_one, ← zpow_natCast, ← zpow_neg]
      congr 2
      omega
  · have hp : 0 < n := by
      have : (0 : ℝ) < n := by simpa using hr
      exact_mod_cast this
    rw [if_pos hp, zero_pow (by omega)]

theorem good_ratHalf : Good (.rat ⟨1, 2⟩ : Expr F) := good_rat.2 ⟨⟨by decide, by decide, by decide, by decide⟩, by decide⟩

theorem distPowSum_ok (hK : Sound lic ρ K) (hC : PlainCtors K) {R : Expr F → Res (Expr F)} (hR : Keeps lic ρ R) {b e r : Expr F}
    (hb : Plain b ∧ Good b) (he : Good e) (h : distPowSum K R b e = .ok (some r)) : POk lic ρ r (powO (eval ρ b) (eval ρ e)) := by
  unfold distPowSum at h
  split at h
  · rename_i n
    split at h
    · cases h
    · rename_i k hk
      split at h
      · cases h
      · rename_i d hd
        have hk' : k.toNat = n.natAbs := by
          rw [Sym.cabs_ok (good_int.1 he) hk, Int.abs_eq_natAbs]; rfl
        rw [hk'] at hd
        obtain ⟨hpos, h1⟩ := distPower_ok hK hC hR (POk.self hb.1 hb.2) hd
        cases hs : distSign K n d with
        | error e => simp [hs, Except.map] at h
        | ok r' =>
          simp only [hs, Except.map, Except.ok.injEq, Option.some.injEq] at h
          subst h
          refine (distSign_ok hK hC h1 hs).mono fun z hz => ?_
          obtain ⟨x, y, hx, hy, hv⟩ := powO_eq_some.1 hz
          rw [eval_int] at hy
          cases hy
          rw [hx]
          exact powVal_int_abs (by omega) hv
  · rename_i q
    by_cases h2 : q.d = 2
    swap
    · rw [if_neg h2] at h; cases h
    rw [if_pos h2] at h
    split at h
    · cases h
    · rename_i k hk
      by_cases h3 : 1 < k
      swap
      · rw [if_neg h3] at h; cases h
      rw [if_pos h3] at h
      split at h
      · cases h
      · rename_i s hs
        split at h
        · cases h
        · rename_i d hd
          have hk' : k.toNat = q.n.natAbs := by
            rw [Sym.cabs_ok (good_rat.1 he).1.1 hk, Int.abs_eq_natAbs]; rfl
          rw [hk'] at hd
          obtain ⟨hpos, h1⟩ := distPower_ok hK hC hR (powP_ok hK hC (POk.self hb.1 hb.2)
            (v := some (1 / 2)) ⟨plain_rat _, good_ratHalf, fun _ z hz => by rw [← hz, eval_rat]; simp [RatC.val]⟩ hs) hd
          cases hs' : distSign K q.n d with
          | error e => simp [hs', Except.map] at h
          | ok r' =>
            simp only [hs', Except.map, Except.ok.injEq, Option.some.injEq] at h
            subst h
            refine (distSign_ok hK hC h1 hs').mono fun z hz => ?_
            obtain ⟨x, y, hx, hy, hv⟩ := powO_eq_some.1 hz
            rw [eval_rat] at hy
            cases hy
            rw [hx]
            have hq : ((q.val : ℚ) : ℂ) = (q.n : ℂ) * (1 / 2) := by
              rw [RatC.val, h2]; push_cast; ring
            rw [hq] at hv
            have h0 : powVal x (1 / 2) = some (x ^ (1 / 2 : ℂ)) := by
              by_cases hx0 : x = 0
              · subst hx0
                rw [powVal_zero_pos (by norm_num), zero_cpow (by norm_num)]
              · rw [powVal_of_ne hx0]
            rw [powO_some, h0]
            refine powVal_int_abs (by omega) ?_
            rcases powVal_cases hv with ⟨hx0, rfl⟩ | ⟨rfl, hr, rfl⟩
            · rw [powVal_of_ne (by rw [Ne, cpow_eq_zero_iff]; tauto), cpow_intCast, ← cpow_int_mul]
            · rw [zero_cpow (by norm_num)]
              refine powVal_zero_pos ?_
              have : ((q.n : ℂ) * (1 / 2)).re = (q.n : ℝ) / 2 := by
                rw [show ((q.n : ℂ) * (1 / 2)) = (((q.n : ℝ) / 2 : ℝ) : ℂ) by push_cast; ring, ofReal_re]
              rw [this] at hr
              rw [intCast_re]
              linarith
  · cases h

theorem distPow_ok (hK : Sound lic ρ K) (hC : PlainCtors K) {R : Expr F → Res (Expr F)} (hR : Keeps lic ρ R) {b e r : Expr F} {u v : Option ℂ}
    (hb : POk lic ρ b u) (he : POk lic ρ e v) (h : distPow K R b e = .ok r) : POk lic ρ r (powO u v) := by
  unfold distPow at h
  split_ifs at h
  · split at h
    · cases h
    · rename_i r' hr
      cases h
      have h1 := distPowSum_ok hK hC hR ⟨hb.1, hb.2.1⟩ he.2.1 hr
      refine ⟨h1.1, h1.2.1, fun hl z hz => h1.2.2 hl z ?_⟩
      obtain ⟨x, y, rfl, rfl, hv⟩ := powO_eq_some.1 hz
      rw [hb.2.2 hl x rfl, he.2.2 hl y rfl]; exact hv
    · exact powP_ok hK hC hb he h
  · exact powP_ok hK hC hb he h

/-- Visiting the children keeps the value. -/
theorem descend_ok (hK : Sound lic ρ K) (hC : PlainCtors K) {m : Nat} {R : Expr F → Res (Expr F)} (hR : Keeps lic ρ R) {e r : Expr F}
    (hp : Plain e) (hg : Good e) (h : descend K m R e = .ok r) : POk lic ρ r (eval ρ e) := by
  obtain ⟨hd, as⟩ := e
  obtain ⟨hp1, hp2⟩ := plain_node.1 hp
  unfold descend at h
  by_cases hl : hd.isLeaf = true
  · rw [if_pos (by exact hl)] at h
    cases h
    exact POk.self hp hg
  · rw [if_neg (by exact hl)] at h
    have hi := leaf_of_not_interp hp1 (by simpa using hl)
    have hc : ∀ x ∈ as, ∀ y, R x = .ok y → POk lic ρ y (eval ρ x) := fun x hx y hy => hR x y (hp2 x hx) ((good_node.1 hg).2 x hx) hy
    exact ⟨over_mapChildren plain_basic hC hi hp1 (fun x hx y hy => (hc x hx y hy).1) h,
      mapChildren_ok (ρ' := ρ) hK rfl hi (fun x hx y hy => (hc x hx y hy).2) h⟩

theorem distBody_ok (hK : Sound lic ρ K) (hC : PlainCtors K) {m : Nat} {R : Expr F → Res (Expr F)} (hR : Keeps lic ρ R) :
    Keeps lic ρ (distBody K m R) := by
  intro e r hp hg h
  unfold distBody at h
  split at h
  · rename_i ts
    split at h
    · cases h
    · rename_i us hu
      rw [eval_mul]
      exact distMany_ok hK hC hR (mapRes_forall hu fun x hx y hy => hR x y ((plain_node.1 hp).2 x hx) ((good_node.1 hg).2 x hx) hy) h
  · rename_i b x
    split at h
    · cases h
    · rename_i b' hb
      split at h
      · cases h
      · rename_i x' hx
        rw [eval_pow]
        have h1 := (plain_node.1 hp).2
        have h2 := (good_node.1 hg).2
        exact distPow_ok hK hC hR (hR b b' (h1 b (by simp)) (h2 b (by simp)) hb) (hR x x' (h1 x (by simp)) (h2 x (by simp)) hx) h
  · exact descend_ok hK hC hR hp hg h

/-- Distributing keeps the value. -/
theorem distribute_ok (hK : Sound lic ρ K) (hC : PlainCtors K) (m : Nat) : ∀ n, Keeps lic ρ (distribute K m n)
  | 0 => fun _ _ _ _ h => (by cases h)
  | n + 1 => distBody_ok hK hC (distribute_ok hK hC m n)

/-! ## Collecting -/

/-- All well-formed. -/
abbrev AllGood (es : List (Expr F)) : Prop := ∀ e ∈ es, Good e

theorem baseAndExp_ok {a : Expr F} (hg : Good a) :
    Good (baseAndExp a).1 ∧ Good (baseAndExp a).2 ∧ powO (eval ρ (baseAndExp a).1) (eval ρ (baseAndExp a).2) = eval ρ a := by
  unfold baseAndExp
  split
  · rename_i b x
    have := (good_node.1 hg).2
    exact ⟨this b (by simp), this x (by simp), (eval_pow ρ b x).symm⟩
  · refine ⟨hg, good_one, ?_⟩
    show powO (eval ρ a) (eval ρ (.int 1)) = _
    rw [eval_int]
    cases eval ρ a with
    | none => rfl
    | some z => rw [powO_some]; simpa using powVal_one z

theorem splitFactor_ok {t x : Expr F} : ∀ {fs rest : List (Expr F)}, AllGood fs → splitFactor t fs = some (x, rest) →
    Good x ∧ AllGood rest ∧ prodO (fs.map (eval ρ)) = mulO (powO (eval ρ t) (eval ρ x)) (prodO (rest.map (eval ρ)))
  | [], _, _, h => by cases h
  | a :: as, rest, hg, h => by
    unfold splitFactor at h
    obtain ⟨h1, h2, h3⟩ := baseAndExp_ok (ρ := ρ) (hg a (by simp))
    by_cases hi : identical (baseAndExp a).1 t = true
    · rw [if_pos hi] at h
      cases h
      refine ⟨h2, fun e he => hg e (List.mem_cons_of_mem _ he), ?_⟩
      rw [← eq_of_identical hi, h3]; rfl
    · rw [if_neg hi] at h
      cases hs : splitFactor t as with
      | none => simp [hs] at h
      | some p =>
        obtain ⟨y, r⟩ := p
        simp only [hs, Option.some.injEq, Prod.mk.injEq] at h
        obtain ⟨rfl, rfl⟩ := h
        obtain ⟨h4, h5, h6⟩ := splitFactor_ok (fun e he => hg e (List.mem_cons_of_mem _ he)) hs
        refine ⟨h4, fun e he => ?_, ?_⟩
        · rcases List.mem_cons.1 he with rfl | he
          · exact hg _ (by simp)
          · exact h5 e he
        · rw [List.map_cons, prodO_cons, h6, List.map_cons, prodO_cons, ← mulO_assoc, ← mulO_assoc, mulO_comm (eval ρ a)]

theorem collectTerm_ok (hK : Sound lic ρ K) {t child x c : Expr F} (hg : Good child) (h : collectTerm K t child = .ok (some (x, c))) :
    Good x ∧ Good c ∧ (lic.TrueAt ρ → ∀ z, eval ρ child = some z → mulO (powO (eval ρ t) (eval ρ x)) (eval ρ c) = some z) := by
  unfold collectTerm at h
  split at h
  · rename_i fs
    cases hs : splitFactor t fs with
    | none => simp [hs] at h
    | some p =>
      obtain ⟨y, rest⟩ := p
      simp only [hs] at h
      obtain ⟨h1, h2, h3⟩ := splitFactor_ok (ρ := ρ) (good_node.1 hg).2 hs
      cases hm : K.mul rest with
      | error e => simp [hm] at h
      | ok d =>
        simp only [hm, Except.ok.injEq, Option.some.injEq, Prod.mk.injEq] at h
        obtain ⟨rfl, rfl⟩ := h
        have h4 := hK.mul rest d h2 hm
        refine ⟨h1, h4.1, fun hl z hz => ?_⟩
        rw [eval_mul, h3] at hz
        obtain ⟨a, b, ha, hb, rfl⟩ := mulO_eq_some.1 hz
        rw [ha, h4.2 hl b hb, mulO_some]
  · split at h
    · rename_i hi
      cases h
      obtain ⟨h1, h2, h3⟩ := baseAndExp_ok (ρ := ρ) hg
      refine ⟨h2, good_one, fun _ z hz => ?_⟩
      rw [← eq_of_identical hi, h3, hz, eval_int, mulO_some]
      simp
    · cases h

/-- Value of the collected part: powers of `t` times sums of coefficients. -/
noncomputable def powersVal (ρ : Env F) (t : Expr F) (ps : Powers F) : Option ℂ :=
  sumO (ps.map fun p => mulO (powO (eval ρ t) (eval ρ p.1)) (sumO (p.2.map (eval ρ))))

theorem pushCoeff_ok {t x c : Expr F} {z : ℂ} (hz : mulO (powO (eval ρ t) (eval ρ x)) (eval ρ c) = some z) :
    ∀ {ps : Powers F} {w : ℂ}, powersVal ρ t ps = some w → powersVal ρ t (pushCoeff x c ps) = some (w + z)
  | [], w, hw => by
    simp only [powersVal, List.map_nil, sumO, Option.some.injEq] at hw
    subst hw
    obtain ⟨a, b, ha, hb, rfl⟩ := mulO_eq_some.1 hz
    simp [pushCoeff, powersVal, sumO, ha, hb]
  | (y, cs) :: ps, w, hw => by
    unfold pushCoeff
    rw [powersVal, List.map_cons, sumO_cons] at hw
    obtain ⟨u, v, hu, hv, rfl⟩ := addO_eq_some.1 hw
    by_cases hi : identical y x = true
    · rw [if_pos hi, powersVal, List.map_cons, sumO_cons, hv]
      rw [← eq_of_identical hi] at hz
      obtain ⟨a, b, ha, hb, rfl⟩ := mulO_eq_some.1 hz
      obtain ⟨a', s, ha', hs, rfl⟩ := mulO_eq_some.1 hu
      rw [ha] at ha'
      cases ha'
      simp only [List.map_append, List.map_cons, List.map_nil, sumO_append, hs, ha]
      simp only [sumO, hb, Option.bind_some, Option.map_some, addO_some, mulO_some, Option.some.injEq]
      ring
    · rw [if_neg hi, powersVal, List.map_cons, sumO_cons, hu]
      have := pushCoeff_ok hz hv
      rw [powersVal] at this
      rw [this, addO_some, add_assoc]

/-- All well-formed. -/
def PowersGood (ps : Powers F) : Prop := ∀ p ∈ ps, Good p.1 ∧ AllGood p.2

theorem pushCoeff_good {x c : Expr F} (hx : Good x) (hc : Good c) : ∀ {ps : Powers F}, PowersGood ps → PowersGood (pushCoeff x c ps)
  | [], _ => by
    intro p hp
    simp only [pushCoeff, List.mem_singleton] at hp
    subst hp
    exact ⟨hx, fun e he => by rw [List.mem_singleton] at he; subst he; exact hc⟩
  | (y, cs) :: ps, h => by
    have h0 := h (y, cs) (by simp)
    have h1 : PowersGood ps := fun p hp => h p (List.mem_cons_of_mem _ hp)
    unfold pushCoeff
    split
    · intro p hp
      rcases List.mem_cons.1 hp with rfl | hp
      · refine ⟨h0.1, fun e he => ?_⟩
        rcases List.mem_append.1 he with he | he
        · exact h0.2 e he
        · rw [List.mem_singleton] at he; subst he; exact hc
      · exact h1 p hp
    · intro p hp
      rcases List.mem_cons.1 hp with rfl | hp
      · exact h0
      · exact pushCoeff_good hx hc h1 p hp

theorem collectSplit_ok (hK : Sound lic ρ K) {t : Expr F} : ∀ {cs : List (Expr F)} {ps ps' : Powers F} {rest : List (Expr F)}, PowersGood ps → AllGood cs →
    collectSplit K t ps cs = .ok (ps', rest) →
    PowersGood ps' ∧ AllGood rest ∧ (lic.TrueAt ρ → ∀ w z, powersVal ρ t ps = some w → sumO (cs.map (eval ρ)) = some z →
      addO (powersVal ρ t ps') (sumO (rest.map (eval ρ))) = some (w + z))
  | [], ps, ps', rest, hp, _, h => by
    cases h
    refine ⟨hp, List.forall_mem_nil _, fun _ w z hw hz => ?_⟩
    rw [hw, hz, addO_some]
  | c :: cs, ps, ps', rest, hp, hg, h => by
    unfold collectSplit at h
    have hg' : AllGood cs := fun e he => hg e (List.mem_cons_of_mem _ he)
    cases hc : collectTerm K t c with
    | error e => simp [hc] at h
    | ok o =>
      cases o with
      | none =>
        simp only [hc] at h
        cases hs : collectSplit K t ps cs with
        | error e => simp [hs] at h
        | ok pr =>
          obtain ⟨ps1, rest1⟩ := pr
          simp only [hs, Except.ok.injEq, Prod.mk.injEq] at h
          obtain ⟨rfl, rfl⟩ := h
          obtain ⟨h1, h2, h3⟩ := collectSplit_ok hK hp hg' hs
          refine ⟨h1, fun e he => ?_, fun hl w z hw hz => ?_⟩
          · rcases List.mem_cons.1 he with rfl | he
            · exact hg _ (by simp)
            · exact h2 e he
          · rw [List.map_cons, sumO_cons] at hz ⊢
            obtain ⟨x, y, hx, hy, rfl⟩ := addO_eq_some.1 hz
            have := h3 hl w y hw hy
            obtain ⟨a, b, ha, hb, hab⟩ := addO_eq_some.1 this
            rw [ha, hb, hx, addO_some, addO_some]
            congr 1
            linear_combination -hab
      | some xk =>
        obtain ⟨x, k⟩ := xk
        simp only [hc] at h
        obtain ⟨h1, h2, h3⟩ := collectTerm_ok hK (hg c (by simp)) hc
        obtain ⟨h4, h5, h6⟩ := collectSplit_ok hK (pushCoeff_good h1 h2 hp) hg' h
        refine ⟨h4, h5, fun hl w z hw hz => ?_⟩
        rw [List.map_cons, sumO_cons] at hz
        obtain ⟨a, b, ha, hb, rfl⟩ := addO_eq_some.1 hz
        have := h6 hl (w + a) b (pushCoeff_ok (h3 hl a ha) hw) hb
        rw [this, add_assoc]

/-- `f` makes a well-formed expression of the value of the sum. -/
def Sums (lic : Lic F) (ρ : Env F) (f : List (Expr F) → Res (Expr F)) : Prop :=
  ∀ cs r, AllGood cs → f cs = .ok r → FnOk lic ρ r (sumO (cs.map (eval ρ)))

theorem collectPower1_ok (hK : Sound lic ρ K) {f : List (Expr F) → Res (Expr F)} (hf : Sums lic ρ f) {t : Expr F} (ht : Good t)
    {p : Expr F × List (Expr F)} {r : Expr F} (hp : Good p.1 ∧ AllGood p.2) (h : collectPower1 K f t p = .ok r) :
    FnOk lic ρ r (mulO (powO (eval ρ t) (eval ρ p.1)) (sumO (p.2.map (eval ρ)))) := by
  unfold collectPower1 at h
  split at h
  · cases h
  · rename_i q hq
    split at h
    · cases h
    · rename_i c hc
      exact mul2_ok hK (hK.pow _ _ _ ht hp.1 hq) (hf _ _ hp.2 hc) h

theorem fnok_sum {α : Type} {f : α → Option ℂ} {as : List α} {bs : List (Expr F)} (h : List.Forall₂ (fun a b => FnOk lic ρ b (f a)) as bs) :
    AllGood bs ∧ (lic.TrueAt ρ → ∀ z, sumO (as.map f) = some z → sumO (bs.map (eval ρ)) = some z) := by
  induction h with
  | nil => exact ⟨List.forall_mem_nil _, fun _ z hz => hz⟩
  | cons h1 _ ih =>
    refine ⟨List.forall_mem_cons.2 ⟨h1.1, ih.1⟩, fun hl z hz => ?_⟩
    rw [List.map_cons, sumO_cons] at hz ⊢
    obtain ⟨x, y, hx, hy, rfl⟩ := addO_eq_some.1 hz
    rw [h1.2 hl x hx, ih.2 hl y hy]; rfl

theorem collectRest_ok {f : List (Expr F) → Res (Expr F)} (hf : Sums lic ρ f) {more : Bool} {rest rest' : List (Expr F)} (hg : AllGood rest)
    (h : collectRest f more rest = .ok rest') :
    AllGood rest' ∧ (lic.TrueAt ρ → ∀ z, sumO (rest.map (eval ρ)) = some z → sumO (rest'.map (eval ρ)) = some z) := by
  unfold collectRest at h
  split at h
  · split at h
    · cases h
    · rename_i r hr
      cases h
      have := hf _ _ hg hr
      refine ⟨List.forall_mem_singleton.2 this.1, fun hl z hz => ?_⟩
      have := this.2 hl z hz
      simp [sumO, this]
  · cases h
    exact ⟨hg, fun _ z hz => hz⟩

/-- Collecting the terms of a sum keeps its value. -/
theorem collectTerms_ok (hK : Sound lic ρ K) : ∀ ts : List (Expr F), AllGood ts → Sums lic ρ (collectTerms K ts)
  | [], _ => fun cs r hg h => hK.add cs r hg h
  | t :: ts, htg => by
    intro cs r hg h
    have ih := collectTerms_ok hK ts (fun e he => htg e (List.mem_cons_of_mem _ he))
    unfold collectTerms at h
    split at h
    · cases h
    · rename_i ps rest hs
      obtain ⟨h1, h2, h3⟩ := collectSplit_ok hK (by intro p hp; cases hp) hg hs
      split at h
      · cases h
      · rename_i rest' hr
        obtain ⟨h4, h5⟩ := collectRest_ok ih h2 hr
        split at h
        · cases h
        · rename_i qs hq
          obtain ⟨h6, h7⟩ := fnok_sum (mapRes_forall hq fun p hp q hpq => collectPower1_ok hK ih (htg t (by simp)) (h1 p hp) hpq)
          have h8 := hK.add _ r (fun e he => (List.mem_append.1 he).elim (h4 e) (h6 e)) h
          refine ⟨h8.1, fun hl z hz => h8.2 hl z ?_⟩
          have := h3 hl 0 z rfl hz
          rw [zero_add] at this
          obtain ⟨a, b, ha, hb, rfl⟩ := addO_eq_some.1 this
          rw [List.map_append, sumO_append, h5 hl b hb, h7 hl a ha, addO_some, add_comm]

/-- Collecting keeps the value. -/
theorem collect_ok (hK : Sound lic ρ K) (m : Nat) {ts : List (Expr F)} (hts : AllGood ts) : ∀ n e r, Plain e → Good e →
    visitor (collectBody K m ts) n e = .ok r → FnOk lic ρ r (eval ρ e)
  | 0, _, _, _, _, h => by cases h
  | n + 1, .node hd as, r, hp, hg, h => by
    obtain ⟨hp1, hp2⟩ := plain_node.1 hp
    have hc : ∀ x ∈ as, ∀ y, visitor (collectBody K m ts) n x = .ok y → FnOk lic ρ y (eval ρ x) :=
      fun x hx y hy => collect_ok hK m hts n x y (hp2 x hx) ((good_node.1 hg).2 x hx) hy
    change collectBody K m ts (visitor (collectBody K m ts) n) (.node hd as) = .ok r at h
    unfold collectBody at h
    split at h
    · rename_i cs heq
      cases heq
      split at h
      · cases h
      · rename_i cs' hcs
        obtain ⟨h1, h2⟩ := fnok_sum (mapRes_forall hcs hc)
        have h3 := collectTerms_ok hK ts hts cs' r h1 h
        refine ⟨h3.1, fun hl z hz => h3.2 hl z (h2 hl z ?_)⟩
        rw [← hz]; exact (eval_add ρ _).symm
    · unfold descend at h
      by_cases hl : hd.isLeaf = true
      · rw [if_pos (by exact hl)] at h
        cases h
        exact ⟨hg, fun _ z hz => hz⟩
      · rw [if_neg (by exact hl)] at h
        exact mapChildren_ok (ρ' := ρ) hK rfl (leaf_of_not_interp hp1 (by simpa using hl)) hc h
end

end Wf.Sym
