import Verif.Sym.DerivativeLemmas

/-! # Differentiation computes the derivative -/

namespace Wf.Sym
open Complex Filter Topology

variable {F : Type} [DecidableEq F] [FnSem F]

/-! ## The result is well-formed -/

section
variable {lic : Lic F} {ρ : Env F} {K : Ctors F} (hK : Sound lic ρ K)
include hK

theorem g_mul {a b r : Expr F} (ha : Good a) (hb : Good b) (h : K.mul [a, b] = .ok r) : Good r := (hK.mul [a, b] r (by simpa using ⟨ha, hb⟩) h).1
theorem g_add {a b r : Expr F} (ha : Good a) (hb : Good b) (h : K.add [a, b] = .ok r) : Good r := (hK.add [a, b] r (by simpa using ⟨ha, hb⟩) h).1
theorem g_pow {a b r : Expr F} (ha : Good a) (hb : Good b) (h : K.pow a b = .ok r) : Good r := (hK.pow a b r ha hb h).1
theorem g_neg {a r : Expr F} (ha : Good a) (h : negE K a = .ok r) : Good r := g_mul hK good_negOne ha h
theorem g_fn {f : BuiltIn} {m : Nat} {a r : Expr F} (ha : Good a) (h : fns K m f a = .ok r) : Good r := (fns_ok hK m f a r ha h).1

theorem g_sub {a b r : Expr F} (ha : Good a) (hb : Good b) (h : subE K a b = .ok r) : Good r := by
  unfold subE at h
  cases hm : K.mul [.int (-1), b] with
  | error e => simp [hm] at h
  | ok m => simp only [hm] at h; exact g_add hK ha (g_mul hK good_negOne hb hm) h

theorem g_div {a b r : Expr F} (ha : Good a) (hb : Good b) (h : divE K a b = .ok r) : Good r := by
  unfold divE at h
  cases hm : K.pow b (.int (-1)) with
  | error e => simp [hm] at h
  | ok m => simp only [hm] at h; exact g_mul hK ha (g_pow hK hb good_negOne hm) h

theorem g_half {r : Expr F} (h : oneHalf K = .ok r) : Good r := g_div hK good_one (hv_two (ρ := ρ)).1 h
theorem g_negHalf {r : Expr F} (h : negOneHalf K = .ok r) : Good r := by
  obtain ⟨n, hn, h⟩ := andThen_ok h
  exact g_div hK (g_neg hK good_one hn) (hv_two (ρ := ρ)).1 h
theorem g_oneMinusSquare {a r : Expr F} (ha : Good a) (h : oneMinusSquare K a = .ok r) : Good r := by
  obtain ⟨s, hs, h⟩ := andThen_ok h
  exact g_sub hK good_one (g_pow hK ha (hv_two (ρ := ρ)).1 hs) h
theorem g_squarePlusOne {a r : Expr F} (ha : Good a) (h : squarePlusOne K a = .ok r) : Good r := by
  obtain ⟨s, hs, h⟩ := andThen_ok h
  exact g_add hK (g_pow hK ha (hv_two (ρ := ρ)).1 hs) good_one h

end

theorem good_derivCreate {f x r : Expr F} {n : Nat} (hf : Good f) (hx : Good x) (h : derivCreate f x n = .ok r) : Good r := by
  have hd : ∀ {g : Expr F} {k : Nat}, Good g → Good (.deriv g x k) := fun hg => good_plain trivial (by simpa using ⟨hg, hx⟩)
  have key : derivCreate.derivNode f x n = .ok r → Good r := by
    intro h
    unfold derivCreate.derivNode at h
    split at h
    · split at h
      · cases h
        refine hd ?_
        rw [good_node] at hf
        exact hf.2 _ (by simp)
      · cases h; exact hd hf
    · cases h; exact hd hf
  unfold derivCreate at h
  split at h
  · cases h
  · split at h
    · exact key h
    · cases h
    · exact key h

/-- The rules that are not modelled make well-formed expressions. -/
def GoodOther (other : Expr F → List (Expr F) → Res (Expr F)) : Prop :=
  ∀ e ds r, Good e → (∀ d ∈ ds, Good d) → other e ds = .ok r → Good r

section
variable {lic : Lic F} {ρ : Env F} {D : DiffCfg F} (hK : Sound lic ρ D.K) (harg : Good D.arg)
include hK

include harg in
theorem g_kink {e : Res (Expr F)} {r : Expr F} (he : ∀ a, e = .ok a → Good a) (h : diffKink D e = .ok r) : Good r := by
  unfold diffKink at h
  split at h
  · obtain ⟨a, ha, h⟩ := andThen_ok h
    exact good_derivCreate (he a ha) harg h
  · cases h; exact good_zero

include harg in
theorem g_fn1 {f : BuiltIn} {func a d r : Expr F} (hf : Good func) (ha : Good a) (hd : Good d) (h : diffFn1 D func f a d = .ok r) : Good r := by
  have hn2 : Good (.int (-2) : Expr F) := (hv_negTwo (ρ := ρ)).1
  cases f with
  | cos =>
    obtain ⟨s, hs, h⟩ := andThen_ok h
    obtain ⟨n, hn, h⟩ := andThen_ok h
    exact g_mul hK (g_neg hK (g_fn hK ha hs) hn) hd h
  | sin =>
    obtain ⟨s, hs, h⟩ := andThen_ok h
    exact g_mul hK (g_fn hK ha hs) hd h
  | tan =>
    obtain ⟨s, hs, h⟩ := andThen_ok h
    obtain ⟨n, hn, h⟩ := andThen_ok h
    exact g_mul hK (g_pow hK (g_fn hK ha hs) hn2 hn) hd h
  | arccos =>
    obtain ⟨s, hs, h⟩ := andThen_ok h
    obtain ⟨k, hk, h⟩ := andThen_ok h
    obtain ⟨p, hp, h⟩ := andThen_ok h
    obtain ⟨n, hn, h⟩ := andThen_ok h
    exact g_mul hK (g_neg hK (g_pow hK (g_oneMinusSquare hK ha hs) (g_negHalf hK hk) hp) hn) hd h
  | arcsin =>
    obtain ⟨s, hs, h⟩ := andThen_ok h
    obtain ⟨k, hk, h⟩ := andThen_ok h
    obtain ⟨p, hp, h⟩ := andThen_ok h
    exact g_mul hK (g_pow hK (g_oneMinusSquare hK ha hs) (g_negHalf hK hk) hp) hd h
  | arctan =>
    obtain ⟨s, hs, h⟩ := andThen_ok h
    exact g_div hK hd (g_squarePlusOne hK ha hs) h
  | cosh | sinh =>
    obtain ⟨s, hs, h⟩ := andThen_ok h
    exact g_mul hK hd (g_fn hK ha hs) h
  | tanh =>
    obtain ⟨s, hs, h⟩ := andThen_ok h
    exact g_mul hK (g_oneMinusSquare hK hf hs) hd h
  | arccosh =>
    obtain ⟨k, hk, h⟩ := andThen_ok h
    obtain ⟨p, hp, h⟩ := andThen_ok h
    obtain ⟨p', hp', h⟩ := andThen_ok h
    obtain ⟨q, hq, h⟩ := andThen_ok h
    obtain ⟨q', hq', h⟩ := andThen_ok h
    obtain ⟨s, hs, h⟩ := andThen_ok h
    obtain ⟨i, hi, h⟩ := andThen_ok h
    have h1 := g_pow hK (g_add hK ha good_one hp) (g_half hK hk) hp'
    have h2 := g_pow hK (g_sub hK ha good_one hq) (g_half hK hk) hq'
    exact g_mul hK (g_pow hK (g_mul hK h1 h2 hs) good_negOne hi) hd h
  | arcsinh =>
    obtain ⟨s, hs, h⟩ := andThen_ok h
    obtain ⟨k, hk, h⟩ := andThen_ok h
    obtain ⟨p, hp, h⟩ := andThen_ok h
    exact g_mul hK (g_pow hK (g_squarePlusOne hK ha hs) (g_negHalf hK hk) hp) hd h
  | arctanh =>
    obtain ⟨s, hs, h⟩ := andThen_ok h
    obtain ⟨p, hp, h⟩ := andThen_ok h
    exact g_mul hK (g_pow hK (g_oneMinusSquare hK ha hs) good_negOne hp) hd h
  | exp => exact g_mul hK hf hd h
  | log =>
    obtain ⟨p, hp, h⟩ := andThen_ok h
    exact g_mul hK (g_pow hK ha good_negOne hp) hd h
  | abs =>
    obtain ⟨b, hb, h⟩ := andThen_ok h
    obtain ⟨q, hq, h⟩ := andThen_ok h
    exact g_mul hK (g_div hK ha (g_fn hK ha hb) hq) hd h
  | signum => exact g_kink hK harg (fun a' h' => g_fn hK ha h') h
  | floor => exact g_kink hK harg (fun a' h' => g_fn hK ha h') h
  | arctan2 => cases h

theorem g_productTerms : ∀ {ts ds pre ps : List (Expr F)}, (∀ t ∈ pre, Good t) → (∀ t ∈ ts, Good t) → (∀ d ∈ ds, Good d) →
    productTerms D.K pre ts ds = .ok ps → ∀ p ∈ ps, Good p
  | [], _, _, _ => fun _ _ _ h => by unfold productTerms at h; cases h; simp
  | _ :: _, [], _, _ => fun _ _ _ h => by unfold productTerms at h; cases h; simp
  | t :: ts, d :: ds, pre, ps => fun hp ht hd h => by
    have hp' : ∀ u ∈ pre ++ [t], Good u := by
      intro u hu
      rcases List.mem_append.1 hu with hu | hu
      · exact hp u hu
      · rw [List.mem_singleton.1 hu]; exact ht t (by simp)
    have ht' : ∀ u ∈ ts, Good u := fun u hu => ht u (by simp [hu])
    have hd' : ∀ u ∈ ds, Good u := fun u hu => hd u (by simp [hu])
    unfold productTerms at h
    by_cases hz : isInt 0 d = true
    · rw [if_pos hz] at h
      exact g_productTerms hp' ht' hd' h
    · rw [if_neg hz] at h
      obtain ⟨p, h1, h⟩ := andThen_ok h
      obtain ⟨qs, h2, h⟩ := andThen_ok h
      cases h
      intro u hu
      rcases List.mem_cons.1 hu with rfl | hu
      · refine (hK.mul _ _ ?_ h1).1
        intro w hw
        rcases List.mem_cons.1 hw with rfl | hw
        · exact hd _ (by simp)
        · rcases List.mem_append.1 hw with hw | hw
          · exact hp w hw
          · exact ht' w hw
      · exact g_productTerms hp' ht' hd' h2 u hu

variable (hO : GoodOther D.other)

theorem g_diffNode {h : Head F} {as : List (Expr F)} {kids branches : Unit → Res (List (Expr F))} {r : Expr F} (harg : Good D.arg)
    (hO : GoodOther D.other) (hg : Good (.node h as))
    (hk : ∀ ds, kids () = .ok ds → ∀ d ∈ ds, Good d) (hb : ∀ ds, branches () = .ok ds → ∀ d ∈ ds, Good d)
    (hr : diffNode D h as kids branches = .ok r) : Good r := by
  have has := (good_node.1 hg).2
  unfold diffNode at hr
  split at hr <;> first | (cases hr; first | exact good_zero | exact good_undef; done) | skip
  · cases hr; split
    · exact good_one
    · exact good_zero
  · cases hr; split
    · exact good_one
    · exact good_zero
  · cases hr; split
    · exact good_one
    · exact good_zero
  · obtain ⟨ds, hds, hr⟩ := andThen_ok hr
    exact (hK.add _ _ (hk ds hds) hr).1
  · obtain ⟨ds, hds, hr⟩ := andThen_ok hr
    obtain ⟨ps, hps, hr⟩ := andThen_ok hr
    have hg := g_productTerms hK (by simp) has (hk ds hds) hps
    split at hr
    · cases hr; exact good_zero
    · exact (hK.add _ _ hg hr).1
  · obtain ⟨ds, hds, hr⟩ := andThen_ok hr
    have hd := hk ds hds
    split at hr
    · rename_i b e db de _
      simp only [List.mem_cons, List.not_mem_nil, or_false, forall_eq_or_imp, forall_eq] at has hd
      unfold diffPow at hr
      by_cases hz : (isInt 0 db && isInt 0 de) = true
      · rw [if_pos hz] at hr; cases hr; exact good_zero
      · rw [if_neg hz] at hr
        obtain ⟨e1, h1, hr⟩ := andThen_ok hr
        obtain ⟨p, h2, hr⟩ := andThen_ok hr
        obtain ⟨q, h3, hr⟩ := andThen_ok hr
        obtain ⟨l, h4, hr⟩ := andThen_ok hr
        obtain ⟨p', h5, hr⟩ := andThen_ok hr
        obtain ⟨g, h6, hr⟩ := andThen_ok hr
        obtain ⟨q', h7, hr⟩ := andThen_ok hr
        obtain ⟨r', h8, hr⟩ := andThen_ok hr
        have hl := g_mul hK (g_mul hK has.2 (g_pow hK has.1 (g_sub hK has.2 good_one h1) h2) h3) hd.1 h4
        have hr' := g_mul hK (g_mul hK (g_pow hK has.1 has.2 h5) (g_fn hK has.1 h6) h7) hd.2 h8
        exact g_add hK hl hr' hr
    · cases hr
  · rename_i f
    obtain ⟨ds, hds, hr⟩ := andThen_ok hr
    have hd := hk ds hds
    unfold diffFn at hr
    by_cases hz : ds.all (isInt 0) = true
    · rw [if_pos hz] at hr; cases hr; exact good_zero
    · rw [if_neg hz] at hr
      split at hr
      · exact g_fn1 hK harg hg (has _ (by simp)) (hd _ (by simp)) hr
      · simp only [List.mem_cons, List.not_mem_nil, or_false, forall_eq_or_imp, forall_eq] at has hd
        split at hr
        · obtain ⟨yy, h1, hr⟩ := andThen_ok hr
          obtain ⟨xx, h2, hr⟩ := andThen_ok hr
          obtain ⟨s, h3, hr⟩ := andThen_ok hr
          obtain ⟨a, h4, hr⟩ := andThen_ok hr
          obtain ⟨na, h5, hr⟩ := andThen_ok hr
          obtain ⟨p, h6, hr⟩ := andThen_ok hr
          obtain ⟨b, h7, hr⟩ := andThen_ok hr
          obtain ⟨q, h8, hr⟩ := andThen_ok hr
          have hs := g_add hK (g_mul hK has.1 has.1 h1) (g_mul hK has.2 has.2 h2) h3
          exact g_add hK (g_div hK (g_neg hK (g_mul hK has.1 hd.2 h4) h5) hs h6) (g_div hK (g_mul hK has.2 hd.1 h7) hs h8) hr
        · cases hr
      · cases hr
  · obtain ⟨ds, hds, hr⟩ := andThen_ok hr
    have hd := hb ds hds
    split at hr
    · cases hr
      exact condCreate_good (has _ (by simp)) (hd _ (by simp)) (hd _ (by simp))
    · cases hr
  · obtain ⟨ds, hds, hr⟩ := andThen_ok hr
    have hd := hk ds hds
    split at hr
    · cases hr
      exact good_unevalCreate (hd _ (by simp))
    · cases hr
  · exact g_kink hK harg (fun a ha => by cases ha; exact hg) hr
  · split_ifs at hr
    · cases hr; exact good_one
    · exact g_kink hK harg (fun a ha => by cases ha; exact hg) hr
  · split at hr
    · unfold diffDeriv at hr
      split_ifs at hr
      · cases hr; exact good_one
      · cases hr; exact good_zero
      · cases hr; exact good_zero
      · exact good_derivCreate hg harg hr
    · cases hr
  · obtain ⟨ds, hds, hr⟩ := andThen_ok hr
    exact hO _ _ _ hg (hk ds hds) hr

mutual
theorem g_diffE (harg : Good D.arg) (hO : GoodOther D.other) : ∀ {e r : Expr F}, Good e → diffE D e = .ok r → Good r
  | .node h as, r => fun hg hr => by
    have has := (good_node.1 hg).2
    unfold diffE at hr
    refine g_diffNode hK harg hO hg (fun ds hds => g_diffs harg hO has hds) (fun ds hds => ?_) hr
    cases as with
    | nil => unfold diffTail at hds; cases hds; simp
    | cons a as => unfold diffTail at hds; exact g_diffs harg hO (fun t ht => has t (by simp [ht])) hds
theorem g_diffs (harg : Good D.arg) (hO : GoodOther D.other) : ∀ {es rs : List (Expr F)}, (∀ e ∈ es, Good e) → diffs D es = .ok rs → ∀ r ∈ rs, Good r
  | [], rs => fun _ h => by unfold diffs at h; cases h; simp
  | e :: es, rs => fun hg h => by
    unfold diffs at h
    obtain ⟨d, h1, h⟩ := andThen_ok h
    obtain ⟨ds, h2, h⟩ := andThen_ok h
    cases h
    intro r hr
    rcases List.mem_cons.1 hr with rfl | hr
    · exact g_diffE harg hO (hg _ (by simp)) h1
    · exact g_diffs harg hO (fun t ht => hg t (by simp [ht])) h2 r hr
end

end

end Wf.Sym
