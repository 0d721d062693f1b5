import Verif.Sym.PermuteLemmas

/-! # Sums and products made again from their operands -/

namespace Wf.Sym.Args
open List (Perm)

section
variable {F : Type} [DecidableEq F] [FloatSem F]

/-! ### Coefficients -/

/-- No rational number made by the constructor has the smallest integer as its numerator. -/
theorem ratMk_num {n d : Int} {r : RatC} (hn : InI64 n) (hd : InI64 d) (h0 : d ≠ 0) (h : ratMk n d = .ok r) : r.n ≠ minI := by
  rw [ratMk_total n d hn hd h0] at h
  split at h
  · cases h
  · next hne =>
    cases h
    show ((n : ℚ) / (d : ℚ)).num ≠ minI
    intro e
    have hdvd : ((n : ℚ) / (d : ℚ)).num ∣ n := by
      rw [← Rat.divInt_eq_div]
      exact Rat.num_dvd n h0
    rw [e] at hdvd
    obtain ⟨k, hk⟩ := hdvd
    have hb := (InI64_iff n).1 hn
    have hne' : n ≠ minI := fun hh => hne (Or.inl hh)
    simp only [minI] at hk hne' e
    have hz : n = 0 := by omega
    rw [hz] at e
    simp at e

theorem ratAdd_num {a b r : RatC} (ha : a.Canonical) (hb : b.Canonical) (h : ratAdd a b = .ok r) : r.n ≠ minI := by
  unfold ratAdd at h
  rw [mulFits_or ha.1 hb.2.1, mulFits_or hb.1 ha.2.1, mulFits_or ha.2.1 hb.2.1] at h
  by_cases h1 : InI64 (a.n * b.d)
  · by_cases h2 : InI64 (b.n * a.d)
    · rw [if_pos h1, if_pos h2] at h
      simp only [Res.bind_ok] at h
      rw [C01_add_exact_or_raises _ _ h1 h2, exactOrRaise] at h
      by_cases h3 : InI64 (a.n * b.d + b.n * a.d)
      · by_cases h4 : InI64 (a.d * b.d)
        · rw [if_pos h3, if_pos h4] at h
          simp only [Res.bind_ok] at h
          exact ratMk_num h3 h4 (mul_pos ha.2.2.1 hb.2.2.1).ne' h
        · rw [if_neg h4] at h; simp [h3] at h
      · simp [h3] at h
    · simp [h1, h2] at h
  · simp [h1] at h

/-- A coefficient as sums make it. -/
def Made (c : Coeff F) : Prop := ∀ r, c = .rat r → r.n ≠ minI

theorem made_addCoeff {a b c : Coeff F} (ha : a.Exact) (hb : b.Exact) (h : addCoeff a b = .ok c) : Made c := by
  intro r hr
  subst hr
  cases a with
  | flt f => exact absurd rfl (ha.2 f)
  | undef => simp [addCoeff] at h
  | zoo => cases b <;> simp [addCoeff] at h
  | int m =>
    cases b with
    | flt f => exact absurd rfl (hb.2 f)
    | undef => simp [addCoeff] at h
    | zoo => simp [addCoeff] at h
    | int n => obtain ⟨k, _, e⟩ := intCoeff_ok h; cases e
    | rat s =>
      obtain ⟨k, hk, e⟩ := ratCoeff_ok h
      cases e
      exact ratAdd_num hb.1 (canonical_ofInt ha.1) hk
  | rat q =>
    cases b with
    | flt f => exact absurd rfl (hb.2 f)
    | undef => simp [addCoeff] at h
    | zoo => simp [addCoeff] at h
    | int n =>
      obtain ⟨k, hk, e⟩ := ratCoeff_ok h
      cases e
      exact ratAdd_num ha.1 (canonical_ofInt hb.1) hk
    | rat s =>
      obtain ⟨k, hk, e⟩ := ratCoeff_ok h
      cases e
      exact ratAdd_num ha.1 hb.1 hk

/-- The constant of a sum is kept when it is added to zero. -/
theorem add_zero_coeff {k : Coeff F} {c : Expr F} (hk : k.Exact) (hm : Made k) (hc : k.toExpr = .ok c) :
    ∃ j j', Coeff.ofExpr c = some j ∧ addCoeff (.int 0) j = .ok j' ∧ j'.toExpr = .ok c := by
  cases k with
  | flt f => exact absurd rfl (hk.2 f)
  | undef => cases hc; exact ⟨.undef, .undef, rfl, rfl, rfl⟩
  | zoo => cases hc; exact ⟨.zoo, .zoo, rfl, rfl, rfl⟩
  | int n =>
    cases hc
    refine ⟨.int n, .int n, rfl, ?_, rfl⟩
    show intCoeff (cadd 0 n) = _
    have hn : InI64 n := hk.1
    rw [C01_add_exact_or_raises 0 n (inI64_small (by decide) (by decide)) hn, exactOrRaise, Int.zero_add, if_pos hn]
    rfl
  | rat r =>
    have hr : r.Canonical := hk.1
    obtain ⟨he, _⟩ := ratExpr_ok hr hc
    by_cases h1 : r.d = 1
    · rw [if_pos h1] at he
      subst he
      refine ⟨.int r.n, .int r.n, rfl, ?_, rfl⟩
      show intCoeff (cadd 0 r.n) = _
      rw [C01_add_exact_or_raises 0 r.n (inI64_small (by decide) (by decide)) hr.1, exactOrRaise, Int.zero_add, if_pos hr.1]
      rfl
    · rw [if_neg h1] at he
      subst he
      refine ⟨.rat r, .rat r, rfl, ?_, hc⟩
      show ratCoeff (ratAdd r (ratOfInt 0)) = _
      have hz := canonical_ofInt (n := 0) (inI64_small (by decide) (by decide))
      have h0 : InI64 (0 : Int) := inI64_small (by decide) (by decide)
      have hadd : ratAdd r (ratOfInt 0) = ratMk r.n r.d := by
        unfold ratAdd
        rw [mulFits_or hr.1 hz.2.1, mulFits_or hz.1 hr.2.1, mulFits_or hr.2.1 hz.2.1]
        simp only [ratOfInt, Int.mul_one, Int.zero_mul]
        rw [if_pos hr.1, if_pos h0, if_pos hr.2.1]
        simp only [Res.bind_ok]
        rw [C01_add_exact_or_raises _ _ hr.1 h0, exactOrRaise, Int.add_zero, if_pos hr.1]
        rfl
      rw [hadd, (ratMk_spec r.n r.d hr.1 hr.2.1 (hm r rfl) (pos_ne_minI hr.2.2.1) hr.2.2.1.ne').1,
        canon_eq hr.2.2.1 hr.2.2.2]
      rfl

/-! ### Operands -/

/-- The operand made from a coefficient and a plain rest gives the coefficient back. -/
theorem sumOperand_coef (reg : Registry) {lic : Lic F} {n : Nat} {m c t : Expr F} (hg : Good m) (hm : PlainRest m) (hc : ExactNum c)
    (h0 : isInt 0 c = false) (h : sumOperand (ctors lic n) (m, c) = .ok t) : (asCoeffMul t).1 = c := by
  obtain ⟨m1, m2, m3⟩ := hm
  have mn := not_numeric_of_not_const m1
  unfold sumOperand at h
  simp only at h
  by_cases h1 : isInt 1 c = true
  · rw [if_pos h1] at h
    cases h
    have hc1 : c = .int 1 := isInt_iff.1 h1
    by_cases hmm : ∃ fs, m = .mul fs
    · obtain ⟨fs, rfl⟩ := hmm
      have hnil : fs.filter isNumeric = [] := by
        rw [List.filter_eq_nil_iff]
        intro f hf
        rw [plain_not_numeric ((m3 fs rfl).2.1 f hf)]; simp
      have hs : splitMul fs = (.int 1, .mul fs) := by unfold splitMul; rw [if_pos hnil]
      rw [hc1]
      unfold asCoeffMul
      split
      · rename_i he; cases he
      · rename_i he; cases he
      · rename_i he; cases he
      · rename_i a b he
        cases he
        rw [List.filter_eq_nil_iff] at hnil
        have ha : isNumeric a = false := by simpa using hnil a (by simp)
        have hb : isNumeric b = false := by simpa using hnil b (by simp)
        rw [ha, hb]
        simp [hs]
      · rename_i he; cases he; rw [hs]
      · rfl
    · rw [asCoeffMul_other (fun ts e => hmm ⟨ts, e⟩) mn, hc1]
  · rw [if_neg h1] at h
    have h1' : isInt 1 c = false := by simpa using h1
    by_cases hmm : ∃ fs, m = .mul fs
    · obtain ⟨fs, rfl⟩ := hmm
      obtain ⟨q1, q2, q3⟩ := m3 fs rfl
      have hlen := ((good_mul.1 hg).1).1
      have hK : (ctors lic n).mul [.mul fs, c] = .ok t := h
      have ht := mul_coeff_plain q2 q3 hlen hc h0 h1' hK
      subst ht
      have hperm := sortTerms_perm (fs ++ [c])
      have hfil : (sortTerms (fs ++ [c])).filter isNumeric = [c] := by
        have hp2 : ((sortTerms (fs ++ [c])).filter isNumeric).Perm [c] := by
          refine (hperm.filter _).trans ?_
          rw [List.filter_append, List.filter_eq_nil_iff.2 (fun f hf => by rw [plain_not_numeric (q2 f hf)]; simp)]
          simp [hc.2.1]
        exact List.perm_singleton.1 hp2
      have hsplit : (splitMul (sortTerms (fs ++ [c]))).1 = c := by
        unfold splitMul
        rw [if_neg (by rw [hfil]; simp)]
        simp only
        rw [hfil]
        rfl
      have hl3 : 3 ≤ (sortTerms (fs ++ [c])).length := by rw [hperm.length_eq]; simp; omega
      rcases hx : sortTerms (fs ++ [c]) with _ | ⟨a, _ | ⟨b, _ | ⟨d, l⟩⟩⟩
      · rw [hx] at hl3; simp at hl3
      · rw [hx] at hl3; simp at hl3
      · rw [hx] at hl3; simp at hl3
      · rw [hx] at hsplit; exact hsplit
    · have ht : t = newMul2 c m := by
        have hh : ∀ m : Expr F, (¬ ∃ fs, m = .mul fs) → m.head ≠ .mul := by
          intro m hm e
          obtain ⟨hd, as⟩ := m
          exact hm ⟨as, by rw [show hd = .mul from e]⟩
        have hmh := hh m hmm
        have hch : c.head ≠ .mul := hh c (by
          rintro ⟨fs, rfl⟩
          cases hc.2.1)
        split at h
        · rename_i e; exact absurd e hmh
        · exact absurd (by assumption) hch
        · cases h; rfl
      subst ht
      have hperm := sortTerms_perm [c, m]
      unfold newMul2
      have hl2 := hperm.length_eq
      rcases hx : sortTerms [c, m] with _ | ⟨a, _ | ⟨b, _ | ⟨d, l⟩⟩⟩
      · rw [hx] at hl2; simp at hl2
      · rw [hx] at hl2; simp at hl2
      · rw [hx] at hperm
        have ha : a ∈ [c, m] := hperm.mem_iff.1 (by simp)
        have hcn := hc.2.1
        rcases List.mem_cons.1 ha with rfl | ha
        · rw [List.perm_cons, List.singleton_perm] at hperm
          cases hperm
          show (if isNumeric _ && !isNumeric _ then _ else _ : Expr F × Expr F).1 = _
          rw [hcn, mn]; rfl
        · rw [List.mem_singleton] at ha
          subst ha
          have h2 := hperm.trans (List.Perm.swap _ _ _)
          rw [List.perm_cons, List.singleton_perm] at h2
          cases h2
          show (if isNumeric _ && !isNumeric _ then _ else if !isNumeric _ && isNumeric _ then _ else _ : Expr F × Expr F).1 = _
          rw [hcn, mn]; rfl
      · rw [hx] at hl2; simp at hl2

/-- Is it not a constant? -/
def sym (t : Expr F) : Bool := (Coeff.ofExpr t).isNone

/-- An operand as the parts of a sum keep it. -/
def pair (t : Expr F) : Expr F × Expr F := ((asCoeffMul t).2, (asCoeffMul t).1)

/-- Filling the parts of a sum from operands that do not merge. -/
theorem fold_fresh (K : Ctors F) : ∀ (L : List (Expr F)) (k k' : Coeff F) (T : List (Expr F × Expr F)),
    (T.map Prod.fst ++ (L.filter sym).map (fun t => (asCoeffMul t).2)).Nodup → foldRes addCoeff k (L.filterMap Coeff.ofExpr) = .ok k' →
    foldRes (addTerm K) ⟨k, T⟩ L = .ok ⟨k', T ++ (L.filter sym).map pair⟩
  | [], k, k', T, _, h => by cases h; simp [foldRes]
  | t :: L, k, k', T, hnd, h => by
    unfold foldRes addTerm
    cases hc : Coeff.ofExpr t with
    | some c =>
      have hs : sym t = false := by unfold sym; rw [hc]; rfl
      rw [List.filter_cons_of_neg (by simp [hs])] at hnd ⊢
      rw [List.filterMap_cons_some hc] at h
      unfold foldRes at h
      cases ha : addCoeff k c with
      | error e => simp only [ha] at h; cases h
      | ok j =>
        simp only [ha] at h
        simp only [ha]
        exact fold_fresh K L j k' T hnd h
    | none =>
      have hs : sym t = true := by unfold sym; rw [hc]; rfl
      rw [List.filter_cons_of_pos hs] at hnd ⊢
      rw [List.filterMap_cons_none hc] at h
      have hk : findKey (asCoeffMul t).2 T = none := by
        rw [findKey_none_iff]
        intro hm
        rw [List.nodup_append] at hnd
        exact hnd.2.2 _ hm _ (by simp) rfl
      simp only [hk]
      have := fold_fresh K L k k' (T ++ [pair t]) (by
        rw [List.map_append, List.append_assoc]
        exact hnd) h
      rw [List.append_assoc] at this
      exact this

theorem mapRes_of {α β : Type} {f : α → Res β} {g : β → α} : ∀ (l : List β), (∀ b ∈ l, f (g b) = .ok b) → mapRes f (l.map g) = .ok l
  | [], _ => rfl
  | b :: l, h => by
    rw [List.map_cons]
    unfold mapRes
    rw [h b (by simp), mapRes_of l fun c hc => h c (by simp [hc])]

theorem flatAdds_self : ∀ (l : List (Expr F)), (∀ t ∈ l, t.head ≠ .add) → flatAdds l = l
  | [], _ => rfl
  | t :: l, h => by
    rw [flatAdds, flatAdds_self l fun u hu => h u (by simp [hu])]
    have ht := h t (by simp)
    obtain ⟨hd, as⟩ := t
    rw [flatAdd.eq_def]
    cases hd
    case add => exact absurd rfl ht
    all_goals rfl

/-- An operand that the sum constructor makes again from its coefficient and the rest. -/
structure Term (K : Ctors F) (t : Expr F) : Prop where
  sym : Coeff.ofExpr t = none
  head : t.head ≠ .add
  again : sumOperand K (pair t) = .ok t
  nonzero : isInt 0 (asCoeffMul t).1 = false

/-- A constant operand that stays as it is. -/
structure Kept (c : Expr F) : Prop where
  again : ∃ j j', Coeff.ofExpr c = some j ∧ addCoeff (.int 0) j = .ok j' ∧ j'.toExpr = .ok c
  nonzero : isInt 0 c = false
  defined : isUndef c = false

/-- A sum as the constructor leaves it. -/
structure Left (reg : Registry) (K : Ctors F) (o : Option (Expr F)) (xs : List (Expr F)) : Prop where
  terms : ∀ t ∈ xs, Term K t
  keys : (xs.map fun t => (asCoeffMul t).2).Nodup
  const : ∀ c ∈ o, Kept c
  regular : ∀ t ∈ o.toList ++ xs, t.Regular reg

theorem made_fold {lic : Lic F} {n : Nat} {L : List (Expr F)} : ∀ {ts : List (Expr F)} {L} {p q : AddParts F}, Collects L p → Made p.coeff →
    (∀ t ∈ ts, Good t ∧ NoFloats t) → foldRes (addTerm (ctors lic n)) p ts = .ok q → Made q.coeff := by
  intro ts
  induction ts with
  | nil => intro L p q _ hm _ h; cases h; exact hm
  | cons t ts ih =>
    intro L p q hp hm hg h
    unfold foldRes at h
    cases ha : addTerm (ctors lic n) p t with
    | error e => simp only [ha] at h; cases h
    | ok p1 =>
      simp only [ha] at h
      have hgt := hg t (by simp)
      have h1 := addTerm_collects hp hgt.1 hgt.2 ha
      refine ih h1 ?_ (fun u hu => hg u (by simp [hu])) h
      unfold addTerm at ha
      cases hc : Coeff.ofExpr t with
      | some c =>
        simp only [hc] at ha
        have hce : c.Exact := by
          rcases ofExpr_cases hc with ⟨n, rfl, rfl⟩ | ⟨r, rfl, rfl⟩ | ⟨f, rfl, rfl⟩ | ⟨rfl, rfl⟩ | ⟨rfl, rfl⟩
          · exact ⟨good_int.1 hgt.1, by simp⟩
          · exact ⟨(good_rat.1 hgt.1).1, by simp⟩
          · exact absurd rfl (hgt.2.not_flt f)
          · exact ⟨trivial, by simp⟩
          · exact ⟨trivial, by simp⟩
        cases hb : addCoeff p.coeff c with
        | error e => simp only [hb] at ha; cases ha
        | ok c' =>
          simp only [hb] at ha
          cases ha
          exact made_addCoeff hp.exact hce hb
      | none =>
        simp only [hc] at ha
        cases hk : findKey (asCoeffMul t).2 p.terms with
        | none => simp only [hk] at ha; cases ha; exact hm
        | some c0 =>
          simp only [hk] at ha
          cases hb : (ctors lic n).add [c0, (asCoeffMul t).1] with
          | error e => simp only [hb] at ha; cases ha
          | ok c' => simp only [hb] at ha; cases ha; exact hm

/-- What a sum consists of. -/
theorem sum_left (reg : Registry) {lic : Lic F} {n : Nat} {ts rs : List (Expr F)} (hg : ∀ t ∈ ts, Good t)
    (hf : ∀ t ∈ ts, NoFloats t) (hr : ∀ t ∈ ts, Over (Registered reg) t) (hm : ∀ t ∈ flatAdds ts, Coeff.ofExpr t = none → PlainRest (asCoeffMul t).2)
    (h : sumGeneral (ctors lic n) ts = .ok (.add rs)) :
    ∃ o xs, Left reg (ctors lic n) o xs ∧ rs = sortTerms (o.toList ++ xs) ∧ 2 ≤ rs.length := by
  unfold sumGeneral at h
  cases hx : foldRes (addTerm (ctors lic n)) ⟨.int 0, []⟩ (flatAdds ts) with
  | error e => simp only [hx] at h; cases h
  | ok p =>
    simp only [hx] at h
    obtain ⟨c1, g1, o1⟩ := sumParts_ok reg hg hf hr hx
    have hmade : Made p.coeff := made_fold (L := []) collects_nil (by intro r e; cases e)
      (fun t ht => ⟨flatAdds_good ts hg t ht, flatAdds_noFloats ts hf t ht⟩) hx
    have hplain : ∀ mc ∈ p.terms, PlainRest mc.1 := by
      intro mc hmc
      obtain ⟨f, hf1, hf2⟩ := List.mem_map.1 ((c1.keys _).1 (List.mem_map_of_mem hmc))
      obtain ⟨t, ht1, ht2⟩ := List.mem_filterMap.1 hf1
      cases hct : Coeff.ofExpr t with
      | some c => unfold symPart at ht2; rw [hct] at ht2; cases ht2
      | none =>
        unfold symPart at ht2; rw [hct] at ht2
        simp only [Option.some.injEq] at ht2
        rw [← hf2, ← ht2]
        exact hm t ht1 hct
    unfold createSum at h
    cases hcx : p.coeff.toExpr with
    | error e => simp only [hcx] at h; cases h
    | ok c =>
      simp only [hcx] at h
      by_cases hu : isUndef c = true
      · rw [if_pos hu] at h
        cases h
      · rw [if_neg hu] at h
        cases hmx : mapRes (sumOperand (ctors lic n)) (p.terms.filter (fun mc => !isInt 0 mc.2)) with
        | error e => simp only [hmx] at h; cases h
        | ok xs =>
          simp only [hmx, Except.ok.injEq] at h
          have hsp : List.Forall₂ (fun mc t => Term (ctors lic n) t ∧ (asCoeffMul t).2 = mc.1)
              (p.terms.filter (fun mc => !isInt 0 mc.2)) xs := by
            have h1 := mapRes_ok hmx
            have h2 : ∀ mc ∈ p.terms.filter (fun mc => !isInt 0 mc.2), mc ∈ p.terms ∧ isInt 0 mc.2 = false :=
              fun mc hmc => ⟨(List.mem_filter.1 hmc).1, by simpa using (List.mem_filter.1 hmc).2⟩
            clear hmx h
            generalize p.terms.filter (fun mc => !isInt 0 mc.2) = l at h1 h2
            induction h1 with
            | nil => exact .nil
            | cons hab _ ih =>
              refine .cons ?_ (ih fun mc hmc => h2 mc (by simp [hmc]))
              obtain ⟨k1, k2⟩ := h2 _ List.mem_cons_self
              obtain ⟨s1, s2, s3⟩ := sumOperand_split reg (g1 _ k1).1 (o1.1 _ k1).1 (hplain _ k1) (c1.vals _ k1).1 k2 hab
              have s4 := sumOperand_coef reg (g1 _ k1).1 (hplain _ k1) (c1.vals _ k1).1 k2 hab
              refine ⟨⟨s1, s2, ?_, by rw [s4]; exact k2⟩, s3⟩
              unfold pair
              rw [s3, s4]; exact hab
          have hall : ∀ t ∈ xs, Term (ctors lic n) t := by
            intro t ht
            clear hmx h
            generalize p.terms.filter (fun mc => !isInt 0 mc.2) = l at hsp
            induction hsp with
            | nil => cases ht
            | cons hab _ ih =>
              rcases List.mem_cons.1 ht with rfl | ht
              · exact hab.1
              · exact ih ht
          have hmap : xs.map (fun t => (asCoeffMul t).2) = (p.terms.filter (fun mc => !isInt 0 mc.2)).map Prod.fst := by
            clear hmx hall h
            generalize p.terms.filter (fun mc => !isInt 0 mc.2) = l at hsp
            induction hsp with
            | nil => rfl
            | cons hab _ ih => rw [List.map_cons, List.map_cons, ih, hab.2]
          have hnd : (xs.map (fun t => (asCoeffMul t).2)).Nodup := by
            rw [hmap]
            exact c1.nodup.sublist (List.Sublist.map _ List.filter_sublist)
          have hgood := (sumOperands_ok (ctors_sound lic ⟨fun _ => none, fun _ _ => none, fun _ _ => none⟩ n)
            (fun mc hmc => g1 mc (List.mem_filter.1 hmc).1) (mapRes_ok hmx)).1
          have hover := over_mapRes (P := Registered reg) hmx fun mc hmc b hb =>
            over_sumOperand (registered_basic reg) (ctors_closed (registered_basic reg) lic n) (o1.1 mc (List.mem_filter.1 hmc).1)
              (o1.2 mc (List.mem_filter.1 hmc).1)
              (fun h0 => by have := (List.mem_filter.1 hmc).2; rw [isInt_iff.2 h0] at this; cases this) hb
          have hreg : ∀ a ∈ xs, a.Regular reg := fun a ha => regular_of reg a (hgood a ha) (hover a ha)
          have hgc := (toExpr_ok c1.exact.1 hcx ⟨fun _ => none, fun _ _ => none, fun _ _ => none⟩).1
          have hrc : c.Regular reg := regular_of reg _ hgc (over_toExpr (registered_basic reg) hcx)
          have hcsome := add_zero_coeff c1.exact hmade hcx
          have hca : c.head ≠ .add := by
            obtain ⟨k, _, hk, _⟩ := hcsome
            rcases ofExpr_cases hk with ⟨n, rfl, rfl⟩ | ⟨r, rfl, rfl⟩ | ⟨f, rfl, rfl⟩ | ⟨rfl, rfl⟩ | ⟨rfl, rfl⟩ <;>
              simp [Expr.int, Expr.rat, Expr.flt, Expr.undef, Expr.zoo, Expr.head]
          have shape : ∀ l : List (Expr F), (∀ t ∈ l, t.head ≠ .add) → newSum l = .add rs → rs = sortTerms l ∧ 2 ≤ rs.length := by
            intro l l1 e
            rcases l with _ | ⟨a, _ | ⟨b, l⟩⟩
            · cases e
            · have e : a = .add rs := e
              have := l1 a (by simp)
              rw [e] at this
              exact absurd rfl this
            · have e : Expr.add (sortTerms (a :: b :: l)) = .add rs := e
              injection e with _ e
              subst e
              exact ⟨rfl, by rw [(sortTerms_perm _).length_eq]; simp⟩
          by_cases h0 : isInt 0 c = true
          · rw [if_pos h0] at h
            refine ⟨none, xs, ⟨hall, hnd, by simp, by simpa using hreg⟩, ?_⟩
            exact shape xs (fun t ht => (hall t ht).head) h
          · rw [if_neg h0] at h
            refine ⟨some c, xs, ⟨hall, hnd, ?_, ?_⟩, ?_⟩
            · intro d hd
              cases hd
              exact ⟨hcsome, by simpa using h0, by simpa using hu⟩
            · intro t ht
              rcases List.mem_append.1 ht with ht | ht
              · rw [Option.toList, List.mem_singleton] at ht; subst ht; exact hrc
              · exact hreg t ht
            · refine shape (c :: xs) ?_ h
              intro t ht
              rcases List.mem_cons.1 ht with rfl | ht
              · exact hca
              · exact (hall t ht).head

/-- Such a sum is made again from its operands in any order. -/
theorem sum_again (reg : Registry) {K : Ctors F} {o : Option (Expr F)} {xs rs us : List (Expr F)} (hl : Left reg K o xs)
    (hrs : rs = sortTerms (o.toList ++ xs)) (h2 : 2 ≤ rs.length) (hus : us.Perm rs) : sumGeneral K us = .ok (.add rs) := by
  have hperm : us.Perm (o.toList ++ xs) := hus.trans (hrs ▸ sortTerms_perm _)
  have h2' : 2 ≤ us.length := by rw [hus.length_eq]; exact h2
  have hoh : ∀ c ∈ o, c.head ≠ .add := by
    intro c hc
    obtain ⟨k, _, hk, _⟩ := (hl.const c hc).again
    rcases ofExpr_cases hk with ⟨n, rfl, rfl⟩ | ⟨r, rfl, rfl⟩ | ⟨f, rfl, rfl⟩ | ⟨rfl, rfl⟩ | ⟨rfl, rfl⟩ <;>
      simp [Expr.int, Expr.rat, Expr.flt, Expr.undef, Expr.zoo, Expr.head]
  have hhead : ∀ t ∈ us, t.head ≠ .add := by
    intro t ht
    rcases List.mem_append.1 (hperm.mem_iff.1 ht) with ht | ht
    · exact hoh t (by simpa using ht)
    · exact (hl.terms t ht).head
  have hsymx : ∀ t ∈ xs, sym t = true := by
    intro t ht; unfold sym; rw [(hl.terms t ht).sym]; rfl
  have hsymo : ∀ c ∈ o, sym c = false := by
    intro c hc
    obtain ⟨k, _, hk, _⟩ := (hl.const c hc).again
    unfold sym; rw [hk]; rfl
  have hfil : (us.filter sym).Perm xs := by
    refine (hperm.filter _).trans ?_
    rw [List.filter_append, List.filter_eq_self.2 hsymx, List.filter_eq_nil_iff.2 (fun c hc => by
      rw [hsymo c (by simpa using hc)]; simp)]
    simp
  have hcon : us.filterMap Coeff.ofExpr = o.toList.filterMap Coeff.ofExpr := by
    have hp : (us.filterMap Coeff.ofExpr).Perm (o.toList.filterMap Coeff.ofExpr) := by
      refine (hperm.filterMap _).trans ?_
      rw [List.filterMap_append, List.filterMap_eq_nil_iff.2 (fun t ht => (hl.terms t ht).sym)]
      simp
    cases o with
    | none => exact List.perm_nil.1 hp
    | some c =>
      obtain ⟨k, _, hk, _⟩ := (hl.const c rfl).again
      have e : (some c).toList.filterMap Coeff.ofExpr = [k] := by simp [hk]
      rw [e] at hp ⊢
      exact List.perm_singleton.1 hp
  have hterms : ∀ t ∈ us.filter sym, Term K t := fun t ht => hl.terms t (hfil.mem_iff.1 ht)
  have hnd : ((us.filter sym).map fun t => (asCoeffMul t).2).Nodup := ((hfil.map _).nodup_iff).2 hl.keys
  have hreg : ∀ t ∈ us, t.Regular reg := fun t ht => hl.regular t (hperm.mem_iff.1 ht)
  have hsorted : rs.Pairwise fun a b => termLe a b = true := by rw [hrs]; exact sortTerms_sorted reg hl.regular
  have done : ∀ l : List (Expr F), us.Perm l → newSum l = .add rs := by
    intro l hpl
    rcases l with _ | ⟨a, _ | ⟨b, l⟩⟩
    · rw [hpl.length_eq] at h2'; simp at h2'
    · rw [hpl.length_eq] at h2'; simp at h2'
    · show Expr.add (sortTerms _) = _
      have hra : ∀ x ∈ a :: b :: l, x.Regular reg := fun x hx => hreg x (hpl.mem_iff.2 hx)
      rw [sorted_eq reg ((sortTerms_perm _).trans (hpl.symm.trans hus)) (fun x hx => hra x ((sortTerms_perm _).mem_iff.1 hx)) (sortTerms_sorted reg hra) hsorted]
  have hfold : ∀ k', foldRes addCoeff (.int 0) (us.filterMap Coeff.ofExpr) = .ok k' →
      foldRes (addTerm K) ⟨.int 0, []⟩ us = .ok ⟨k', (us.filter sym).map pair⟩ := by
    intro k' hk
    have := fold_fresh K us (.int 0) k' [] (by simpa using hnd) hk
    simpa using this
  have hkeep : ((us.filter sym).map pair).filter (fun mc => !isInt 0 mc.2) = (us.filter sym).map pair := by
    rw [List.filter_eq_self]
    intro mc hmc
    obtain ⟨t, ht, rfl⟩ := List.mem_map.1 hmc
    show (!isInt 0 (asCoeffMul t).1) = true
    rw [(hterms t ht).nonzero]; rfl
  have hmap : mapRes (sumOperand K) ((us.filter sym).map pair) = .ok (us.filter sym) :=
    mapRes_of _ fun t ht => (hterms t ht).again
  unfold sumGeneral
  rw [flatAdds_self us hhead]
  cases o with
  | none =>
    rw [hfold (.int 0) (by rw [hcon]; rfl)]
    simp only [createSum, Coeff.toExpr, hkeep, hmap]
    have hu : isUndef (Expr.int 0 : Expr F) = false := by rfl
    have hz : isInt 0 (Expr.int 0 : Expr F) = true := isInt_iff.2 rfl
    rw [hu, hz]
    simp only [if_true, Bool.false_eq_true, if_false]
    rw [done _ (hperm.trans (by simpa using hfil.symm))]
  | some c =>
    obtain ⟨⟨j, j', hj, ha, ht⟩, hz, hu⟩ := hl.const c rfl
    rw [hfold j' (by
      rw [hcon]
      have e : (some c).toList.filterMap Coeff.ofExpr = [j] := by simp [hj]
      rw [e]
      simp only [foldRes, ha])]
    simp only [createSum, ht, hkeep, hmap, hz, hu, Bool.false_eq_true, if_false]
    rw [done _ (hperm.trans (by simpa using hfil.symm))]

/-! ### Products -/

theorem ratMul_num {a b r : RatC} (ha : a.Canonical) (hb : b.Canonical) (h : ratMul a b = .ok r) : r.n ≠ minI := by
  unfold ratMul at h
  rw [mulFits_or ha.1 hb.1, mulFits_or ha.2.1 hb.2.1] at h
  by_cases h1 : InI64 (a.n * b.n)
  · by_cases h2 : InI64 (a.d * b.d)
    · rw [if_pos h1, if_pos h2] at h
      simp only [Res.bind_ok] at h
      exact ratMk_num h1 h2 (mul_pos ha.2.2.1 hb.2.2.1).ne' h
    · simp [h1, h2] at h
  · simp [h1] at h

theorem made_mulCoeff {a b c : Coeff F} (ha : a.Exact) (hb : b.Exact) (h : mulCoeff a b = .ok c) : Made c := by
  have z1 : ∀ (p : Prop) [Decidable p] (r : RatC), (if p then Coeff.undef else Coeff.zoo : Coeff F) ≠ .rat r := by
    intro p _ r; split <;> simp
  intro r hr
  subst hr
  cases a with
  | flt f => exact absurd rfl (ha.2 f)
  | undef => simp [mulCoeff] at h
  | zoo =>
    cases b with
    | flt f => exact absurd rfl (hb.2 f)
    | int n => simp only [mulCoeff, Except.ok.injEq] at h; exact absurd h (z1 _ _)
    | rat q => simp only [mulCoeff, Except.ok.injEq] at h; exact absurd h (z1 _ _)
    | undef => simp [mulCoeff] at h
    | zoo => simp [mulCoeff] at h
  | int m =>
    cases b with
    | flt f => exact absurd rfl (hb.2 f)
    | undef => simp [mulCoeff] at h
    | zoo => simp only [mulCoeff, Except.ok.injEq] at h; exact absurd h (z1 _ _)
    | int n => obtain ⟨k, _, e⟩ := intCoeff_ok h; cases e
    | rat s =>
      obtain ⟨k, hk, e⟩ := ratCoeff_ok h
      cases e
      exact ratMul_num hb.1 (canonical_ofInt ha.1) hk
  | rat q =>
    cases b with
    | flt f => exact absurd rfl (hb.2 f)
    | undef => simp [mulCoeff] at h
    | zoo => simp only [mulCoeff, Except.ok.injEq] at h; exact absurd h (z1 _ _)
    | int n =>
      obtain ⟨k, hk, e⟩ := ratCoeff_ok h
      cases e
      exact ratMul_num ha.1 (canonical_ofInt hb.1) hk
    | rat s =>
      obtain ⟨k, hk, e⟩ := ratCoeff_ok h
      cases e
      exact ratMul_num ha.1 hb.1 hk

/-- The constant of a product is kept when it is multiplied by one. -/
theorem mul_one_coeff {k : Coeff F} {c : Expr F} (hk : k.Exact) (hm : Made k) (hc : k.toExpr = .ok c) :
    ∃ j j', Coeff.ofExpr c = some j ∧ mulCoeff (.int 1) j = .ok j' ∧ j'.toExpr = .ok c := by
  have h1I : InI64 (1 : Int) := inI64_small (by decide) (by decide)
  cases k with
  | flt f => exact absurd rfl (hk.2 f)
  | undef => cases hc; exact ⟨.undef, .undef, rfl, rfl, rfl⟩
  | zoo => cases hc; exact ⟨.zoo, .zoo, rfl, rfl, rfl⟩
  | int n =>
    cases hc
    refine ⟨.int n, .int n, rfl, ?_, rfl⟩
    show intCoeff (cmul 1 n) = _
    have hn : InI64 n := hk.1
    rw [C01_mul_exact_or_raises 1 n h1I hn, exactOrRaise, Int.one_mul, if_pos hn]
    rfl
  | rat r =>
    have hr : r.Canonical := hk.1
    obtain ⟨he, _⟩ := ratExpr_ok hr hc
    by_cases h1 : r.d = 1
    · rw [if_pos h1] at he
      subst he
      refine ⟨.int r.n, .int r.n, rfl, ?_, rfl⟩
      show intCoeff (cmul 1 r.n) = _
      rw [C01_mul_exact_or_raises 1 r.n h1I hr.1, exactOrRaise, Int.one_mul, if_pos hr.1]
      rfl
    · rw [if_neg h1] at he
      subst he
      refine ⟨.rat r, .rat r, rfl, ?_, hc⟩
      show ratCoeff (ratMul r (ratOfInt 1)) = _
      have hz := canonical_ofInt (n := 1) h1I
      have hmul : ratMul r (ratOfInt 1) = ratMk r.n r.d := by
        unfold ratMul
        rw [mulFits_or hr.1 hz.1, mulFits_or hr.2.1 hz.2.1]
        simp only [ratOfInt, Int.mul_one]
        rw [if_pos hr.1, if_pos hr.2.1]
        rfl
      rw [hmul, (ratMk_spec r.n r.d hr.1 hr.2.1 (hm r rfl) (pos_ne_minI hr.2.2.1) hr.2.2.1.ne').1,
        canon_eq hr.2.2.1 hr.2.2.2]
      rfl

theorem made_foldP {lic : Lic F} {n : Nat} : ∀ {ts : List (Expr F)} {L} {p q : MulParts F}, CollectsP L p → Made p.coeff →
    (∀ t ∈ ts, Good t ∧ NoFloats t) → Mergeable (L ++ ts) → (∀ t ∈ ts, Coeff.ofExpr t = none → PlainBase (powerOf t).1) →
    foldRes (mulTerm (ctors lic n) lic) p ts = .ok q → Made q.coeff ∧ ((∀ t ∈ ts, Coeff.ofExpr t = none) → q.coeff = p.coeff) := by
  intro ts
  induction ts with
  | nil => intro L p q _ hm _ _ _ h; cases h; exact ⟨hm, fun _ => rfl⟩
  | cons t ts ih =>
    intro L p q hp hm hg hme hb h
    unfold foldRes at h
    cases ha : mulTerm (ctors lic n) lic p t with
    | error e => simp only [ha] at h; cases h
    | ok p1 =>
      simp only [ha] at h
      have hgt := hg t (by simp)
      have hme' : Mergeable (L ++ [t] ++ ts) := by simpa using hme
      have h1 := mulTerm_collects hp hgt.1 hgt.2 hme'.left (hb t (by simp)) ha
      have key : Made p1.coeff ∧ (Coeff.ofExpr t = none → p1.coeff = p.coeff) := by
        cases hc : Coeff.ofExpr t with
        | some c =>
          unfold mulTerm at ha
          simp only [hc] at ha
          have hce : c.Exact := by
            rcases ofExpr_cases hc with ⟨n, rfl, rfl⟩ | ⟨r, rfl, rfl⟩ | ⟨f, rfl, rfl⟩ | ⟨rfl, rfl⟩ | ⟨rfl, rfl⟩
            · exact ⟨good_int.1 hgt.1, by simp⟩
            · exact ⟨(good_rat.1 hgt.1).1, by simp⟩
            · exact absurd rfl (hgt.2.not_flt f)
            · exact ⟨trivial, by simp⟩
            · exact ⟨trivial, by simp⟩
          cases hb : mulCoeff p.coeff c with
          | error e => simp only [hb] at ha; cases ha
          | ok c' =>
            simp only [hb] at ha
            cases ha
            exact ⟨made_mulCoeff hp.exact hce hb, by simp⟩
        | none =>
          have hpb := hb t (by simp) hc
          rw [mulTerm_power hc] at ha
          have hco : p1.coeff = p.coeff := by
            unfold insertPower at ha
            cases hk : findKey (powerOf t).1 p.terms with
            | none => simp only [hk] at ha; cases ha; rfl
            | some e0 =>
              simp only [hk] at ha
              cases hu : (ctors lic n).add [e0, (powerOf t).2] with
              | error e => simp only [hu] at ha; cases ha
              | ok u =>
                simp only [hu] at ha
                unfold mergePower at ha
                rw [hpb.2.1] at ha
                cases ha; rfl
          rw [hco]
          exact ⟨hm, fun _ => rfl⟩
      obtain ⟨i1, i2⟩ := ih h1 key.1 (fun u hu => hg u (by simp [hu])) hme' (fun u hu => hb u (by simp [hu])) h
      exact ⟨i1, fun hall => by rw [i2 fun u hu => hall u (by simp [hu]), key.2 (hall t (by simp))]⟩

/-- A factor that the product constructor makes again from its base and exponent. -/
structure Factor (K : Ctors F) (t : Expr F) : Prop where
  sym : Coeff.ofExpr t = none
  head : t.head ≠ .mul
  again : K.pow (powerOf t).1 (powerOf t).2 = .ok t
  nonzero : isInt 0 (powerOf t).2 = false
  plain : hasNumericCoeff t = false

/-- A constant factor that stays as it is. -/
structure KeptP (c : Expr F) : Prop where
  again : ∃ j j', Coeff.ofExpr c = some j ∧ mulCoeff (.int 1) j = .ok j' ∧ j'.toExpr = .ok c
  nonzero : isInt 0 c = false
  notOne : isInt 1 c = false
  defined : isUndef c = false

/-- A product as the constructor leaves it. -/
structure LeftP (reg : Registry) (K : Ctors F) (o : Option (Expr F)) (xs : List (Expr F)) : Prop where
  terms : ∀ t ∈ xs, Factor K t
  keys : (xs.map fun t => (powerOf t).1).Nodup
  const : ∀ c ∈ o, KeptP c
  regular : ∀ t ∈ o.toList ++ xs, t.Regular reg
  noSum : o = none ∨ ∀ t ∈ xs, t.head ≠ .add

/-- Filling the parts of a product from factors that do not merge. -/
theorem fold_freshP (K : Ctors F) (lic : Lic F) : ∀ (L : List (Expr F)) (k k' : Coeff F) (T : List (Expr F × Expr F)),
    (T.map Prod.fst ++ (L.filter sym).map (fun t => (powerOf t).1)).Nodup → foldRes mulCoeff k (L.filterMap Coeff.ofExpr) = .ok k' →
    foldRes (mulTerm K lic) ⟨k, T⟩ L = .ok ⟨k', T ++ (L.filter sym).map powerOf⟩
  | [], k, k', T, _, h => by cases h; simp [foldRes]
  | t :: L, k, k', T, hnd, h => by
    unfold foldRes
    cases hc : Coeff.ofExpr t with
    | some c =>
      have hs : sym t = false := by unfold sym; rw [hc]; rfl
      rw [List.filter_cons_of_neg (by simp [hs])] at hnd ⊢
      rw [List.filterMap_cons_some hc] at h
      unfold foldRes at h
      unfold mulTerm
      cases ha : mulCoeff k c with
      | error e => simp only [ha] at h; cases h
      | ok j =>
        simp only [ha] at h
        simp only [hc, ha]
        exact fold_freshP K lic L j k' T hnd h
    | none =>
      have hs : sym t = true := by unfold sym; rw [hc]; rfl
      rw [List.filter_cons_of_pos hs] at hnd ⊢
      rw [List.filterMap_cons_none hc] at h
      rw [mulTerm_power hc]
      have hk : findKey (powerOf t).1 T = none := by
        rw [findKey_none_iff]
        intro hm
        rw [List.nodup_append] at hnd
        exact hnd.2.2 _ hm _ (by simp) rfl
      unfold insertPower
      simp only [hk]
      have := fold_freshP K lic L k k' (T ++ [powerOf t]) (by
        rw [List.map_append, List.append_assoc]
        exact hnd) h
      rw [List.append_assoc] at this
      exact this

theorem flatMuls_self : ∀ (l : List (Expr F)), (∀ t ∈ l, t.head ≠ .mul) → flatMuls l = l
  | [], _ => rfl
  | t :: l, h => by
    rw [flatMuls, flatMuls_self l fun u hu => h u (by simp [hu])]
    have ht := h t (by simp)
    obtain ⟨hd, as⟩ := t
    rw [flatMul.eq_def]
    cases hd
    case mul => exact absurd rfl ht
    all_goals rfl

theorem createSteps_again {K : Ctors F} : ∀ (l : List (Expr F)) (st : CreateSt F), (∀ t ∈ l, Factor K t) →
    foldRes (createStep K) st (l.map powerOf) = .ok (st.1, st.2 ++ l)
  | [], st, _ => by simp [foldRes]
  | t :: l, st, h => by
    have ht := h t (by simp)
    rw [List.map_cons, foldRes]
    have hs : createStep K st (powerOf t) = .ok (st.1, st.2 ++ [t]) := by
      unfold createStep
      rw [ht.again]
      simp only
      unfold collectPower
      rw [ht.plain]; rfl
    rw [hs]
    simp only
    rw [createSteps_again l _ fun u hu => h u (by simp [hu])]
    simp

/-- A power of a plain base is split into the base and the exponent it was made from. -/
theorem factor_made {lic : Lic F} {n : Nat} {b e t : Expr F} (hb : PlainBase b) (h0 : isInt 0 e = false) (hz : e ≠ .zoo) (hu : e ≠ .undef)
    (h : (ctors lic n).pow b e = .ok t) : Factor (ctors lic n) t ∧ powerOf t = (b, e) := by
  have hcoef := ctors_pow_plain hb h0 h
  cases n with
  | zero => cases h
  | succ n =>
    have hpb : powerOf b = (b, .int 1) := by
      unfold powerOf
      split
      · cases hb.2.1
      · exact absurd rfl (hb.2.2.2.2 _)
      · rfl
    rcases powCreate_plain hb h with ⟨_, h1 | h1⟩ | ⟨h1, _⟩ | ⟨h1, h2⟩ | ⟨h1, h2⟩
    · exact absurd h1 hu
    · exact absurd h1 hz
    · rw [isInt_iff.2 h1] at h0; cases h0
    · subst h1 h2
      refine ⟨⟨hb.1, ?_, by rw [hpb]; exact h, by rw [hpb]; exact h0, hcoef⟩, hpb⟩
      intro e
      have := hb.2.1
      unfold isMulOrPow at this
      rw [e] at this; cases this
    · subst h2
      exact ⟨⟨rfl, by simp [Expr.pow, Expr.head], h, h0, hcoef⟩, rfl⟩

/-- What a product consists of. -/
theorem product_left (reg : Registry) {lic : Lic F} {n : Nat} {ts rs : List (Expr F)} (hg : ∀ t ∈ ts, Good t)
    (hf : ∀ t ∈ ts, NoFloats t) (hr : ∀ t ∈ ts, Over (Registered reg) t) (hm : Mergeable (flatMuls ts))
    (hb : ∀ t ∈ flatMuls ts, Coeff.ofExpr t = none → PlainFactor t)
    (hs : (∀ t ∈ flatMuls ts, (powerOf t).1.head ≠ .add) ∨ ∀ t ∈ flatMuls ts, Coeff.ofExpr t = none)
    (h : productGeneral (ctors lic n) lic ts = .ok (.mul rs)) :
    ∃ o xs, LeftP reg (ctors lic n) o xs ∧ rs = sortTerms (o.toList ++ xs) ∧ 2 ≤ rs.length := by
  have hb' : ∀ t ∈ flatMuls ts, Coeff.ofExpr t = none → PlainBase (powerOf t).1 := fun t ht hc => (hb t ht hc).2.2.1
  unfold productGeneral at h
  rw [mulVisits_flat] at h
  cases hx : foldRes (mulTerm (ctors lic n) lic) ⟨.int 1, []⟩ (flatMuls ts) with
  | error e => simp only [hx] at h; cases h
  | ok p =>
    simp only [hx] at h
    have hgf : ∀ t ∈ flatMuls ts, Good t ∧ NoFloats t := fun t ht => ⟨flatMuls_good ts hg t ht, flatMuls_noFloats ts hf t ht⟩
    have c1 : CollectsP (flatMuls ts) p := by
      have := mulTerms_collects collectsP_nil hgf (by simpa using hm) hb' hx
      simpa using this
    obtain ⟨hmade, hcon1⟩ := made_foldP collectsP_nil (by intro r e; cases e) hgf (by simpa using hm) hb' hx
    have hfine := (mulTerms_ok (ctors_sound lic ⟨fun _ => none, fun _ _ => none, fun _ _ => none⟩ n)
      (p := ⟨.int 1, []⟩) ⟨inI64_small (by decide) (by decide), by simp⟩ (flatMuls_good ts hg) hx).1
    have hover : OverT (Registered reg) p.terms :=
      overT_fold (Q := fun p : MulParts F => OverT (Registered reg) p.terms) (R := Over (Registered reg))
        (fun s a s1 => over_mulTerm (registered_basic reg) (ctors_closed (registered_basic reg) lic n) s a s1) (by simp [OverT])
        (over_flatMuls (registered_basic reg) ts hr) hx
    have hkey : ∀ be ∈ p.terms, ∃ t ∈ flatMuls ts, Coeff.ofExpr t = none ∧ (powerOf t).1 = be.1 := by
      intro be hbe
      obtain ⟨f, hf1, hf2⟩ := List.mem_map.1 ((c1.keys _).1 (List.mem_map_of_mem hbe))
      obtain ⟨t, ht1, ht2⟩ := List.mem_filterMap.1 hf1
      cases hct : Coeff.ofExpr t with
      | some c => unfold factorOf at ht2; rw [hct] at ht2; cases ht2
      | none =>
        unfold factorOf at ht2; rw [hct] at ht2
        simp only [Option.some.injEq] at ht2
        exact ⟨t, ht1, hct, by rw [← hf2, ← ht2]⟩
    have hplain : ∀ be ∈ p.terms, PlainBase be.1 := by
      intro be hbe
      obtain ⟨t, ht1, hct, e⟩ := hkey be hbe
      rw [← e]; exact hb' t ht1 hct
    -- the exponents are neither infinite nor undefined
    have hexp : ∀ be ∈ p.terms, be.2 ≠ .zoo ∧ be.2 ≠ .undef := by
      intro be hbe
      rcases c1.vals be hbe with hone | ⟨_, hx, _⟩
      · have hmem : be.2 ∈ powersOf be.1 (flatMuls ts) := by rw [hone]; simp
        unfold powersOf at hmem
        obtain ⟨f, hf1, hf2⟩ := List.mem_map.1 hmem
        obtain ⟨t, ht1, ht2⟩ := List.mem_filterMap.1 (List.mem_filter.1 hf1).1
        cases hct : Coeff.ofExpr t with
        | some c => unfold factorOf at ht2; rw [hct] at ht2; cases ht2
        | none =>
          unfold factorOf at ht2; rw [hct] at ht2
          simp only [Option.some.injEq] at ht2
          have hpf := hb t ht1 hct
          rw [← hf2, ← ht2]
          by_cases hpow : ∃ b e, t = .pow b e
          · obtain ⟨b, e, rfl⟩ := hpow
            exact (hpf.2.2.2 b e rfl).2.2
          · have hpf' : powerOf t = (t, .int 1) := by
              have hbb := hpf.2.2.1
              unfold powerOf at hbb ⊢
              split
              · exact absurd ⟨_, _, rfl⟩ hpow
              · cases hbb.2.2.2.1
              · rfl
            rw [hpf']
            exact ⟨by simp, by simp⟩
      · rcases ExactNum.cases hx with ⟨k, e, _⟩ | ⟨q, e, _⟩ <;> rw [e] <;> exact ⟨by simp, by simp⟩
    unfold createProduct at h
    cases hsx : foldRes (createStep (ctors lic n)) (p.coeff, []) (p.terms.filter (fun be => !isInt 0 be.2)) with
    | error e => simp only [hsx] at h; cases h
    | ok s1 =>
      simp only [hsx] at h
      obtain ⟨ps, hps, rfl⟩ := createSteps_plain (fun be hbe => ⟨hplain be (List.mem_filter.1 hbe).1, by simpa using (List.mem_filter.1 hbe).2⟩) hsx
      simp only [List.nil_append] at h
      have hsp : List.Forall₂ (fun be t => Factor (ctors lic n) t ∧ powerOf t = be) (p.terms.filter (fun be => !isInt 0 be.2)) ps := by
        have h1 := mapRes_ok hps
        have h2 : ∀ be ∈ p.terms.filter (fun be => !isInt 0 be.2), be ∈ p.terms ∧ isInt 0 be.2 = false :=
          fun be hbe => ⟨(List.mem_filter.1 hbe).1, by simpa using (List.mem_filter.1 hbe).2⟩
        clear hps h hsx
        generalize p.terms.filter (fun be => !isInt 0 be.2) = l at h1 h2
        induction h1 with
        | nil => exact .nil
        | cons hab _ ih =>
          refine .cons ?_ (ih fun be hbe => h2 be (by simp [hbe]))
          obtain ⟨k1, k2⟩ := h2 _ List.mem_cons_self
          exact factor_made (hplain _ k1) k2 (hexp _ k1).1 (hexp _ k1).2 hab
      have hmap : ps.map powerOf = p.terms.filter (fun be => !isInt 0 be.2) := by
        clear hps h hsx
        generalize p.terms.filter (fun be => !isInt 0 be.2) = l at hsp
        induction hsp with
        | nil => rfl
        | cons hab _ ih => rw [List.map_cons, ih, hab.2]
      have hall : ∀ t ∈ ps, Factor (ctors lic n) t := by
        intro t ht
        clear hps h hsx hmap
        generalize p.terms.filter (fun be => !isInt 0 be.2) = l at hsp
        induction hsp with
        | nil => cases ht
        | cons hab _ ih =>
          rcases List.mem_cons.1 ht with rfl | ht
          · exact hab.1
          · exact ih ht
      have hin : ∀ t ∈ ps, powerOf t ∈ p.terms := fun t ht => by
        have : powerOf t ∈ ps.map powerOf := List.mem_map_of_mem ht
        rw [hmap] at this
        exact (List.mem_filter.1 this).1
      have hnd : (ps.map fun t => (powerOf t).1).Nodup := by
        have e : (ps.map fun t => (powerOf t).1) = (ps.map powerOf).map Prod.fst := by rw [List.map_map]; rfl
        rw [e, hmap]
        exact c1.nodup.sublist (List.Sublist.map _ List.filter_sublist)
      have hreg : ∀ a ∈ ps, a.Regular reg := by
        intro a ha
        have hmem := hin a ha
        have hbe2 := (hall a ha).again
        exact regular_of reg a ((ctors_sound lic ⟨fun _ => none, fun _ _ => none, fun _ _ => none⟩ n).pow _ _ _ (hfine.2 _ hmem).1 (hfine.2 _ hmem).2 hbe2).1
          ((ctors_closed (registered_basic reg) lic n).pow _ _ _ (hover _ hmem).1 (hover _ hmem).2 hbe2)
      have hadd : (∀ t ∈ flatMuls ts, (powerOf t).1.head ≠ .add) → ∀ t ∈ ps, t.head ≠ .add := by
        intro hs t ht e
        obtain ⟨u, hu, _, hub⟩ := hkey _ (hin t ht)
        have h1 := hs u hu
        rw [hub] at h1
        have : powerOf t = (t, .int 1) := by
          obtain ⟨hd, as⟩ := t
          have e : hd = .add := e
          subst e
          rfl
        rw [this] at h1
        exact h1 e
      cases hcx : p.coeff.toExpr with
      | error e => simp only [hcx] at h; cases h
      | ok c =>
        simp only [hcx] at h
        have hgc := (toExpr_ok c1.exact.1 hcx ⟨fun _ => none, fun _ _ => none, fun _ _ => none⟩).1
        have hrc : c.Regular reg := regular_of reg _ hgc (over_toExpr (registered_basic reg) hcx)
        have hcsome := mul_one_coeff c1.exact hmade hcx
        have hch : c.head ≠ .mul := by
          obtain ⟨k, _, hk, _⟩ := hcsome
          rcases ofExpr_cases hk with ⟨n, rfl, rfl⟩ | ⟨r, rfl, rfl⟩ | ⟨f, rfl, rfl⟩ | ⟨rfl, rfl⟩ | ⟨rfl, rfl⟩ <;>
            simp [Expr.int, Expr.rat, Expr.flt, Expr.undef, Expr.zoo, Expr.head]
        have shape : ∀ l : List (Expr F), (∀ t ∈ l, t.head ≠ .mul) → maybeNewMul l = .mul rs → rs = sortTerms l ∧ 2 ≤ rs.length := by
          intro l l1 e
          rcases l with _ | ⟨a, _ | ⟨b, l⟩⟩
          · cases e
          · have e : a = .mul rs := e
            have := l1 a (by simp)
            rw [e] at this
            exact absurd rfl this
          · have e : Expr.mul (sortTerms (a :: b :: l)) = .mul rs := e
            injection e with _ e
            subst e
            exact ⟨rfl, by rw [(sortTerms_perm _).length_eq]; simp⟩
        have hone : isInt 1 c = true ∨ (isInt 1 c = false ∧ ∀ t ∈ ps, t.head ≠ .add) := by
          rcases hs with hs | hs
          · cases h1 : isInt 1 c with
            | true => exact Or.inl rfl
            | false => exact Or.inr ⟨rfl, hadd hs⟩
          · have := hcon1 hs
            rw [this] at hcx
            cases hcx
            exact Or.inl (isInt_iff.2 rfl)
        unfold finishProduct at h
        by_cases hzu : (isInt 0 c || isUndef c) = true
        · rw [if_pos hzu] at h
          cases h
          exact absurd rfl hch
        · rw [if_neg hzu] at h
          have hz : isInt 0 c = false := by cases e : isInt 0 c with | false => rfl | true => simp [e] at hzu
          have hu : isUndef c = false := by cases e : isUndef c with | false => rfl | true => simp [e] at hzu
          rcases hone with h1 | ⟨h1, hna⟩
          · rw [h1] at h
            have h : maybeNewMul ps = .mul rs := by
              split at h
              · next heq => cases heq
              · simpa using h
              · next heq => cases heq
            exact ⟨none, ps, ⟨hall, hnd, by simp, by simpa using hreg, Or.inl rfl⟩, shape ps (fun t ht => (hall t ht).head) h⟩
          · rw [h1] at h
            have h : maybeNewMul (ps ++ [c]) = .mul rs := by
              split at h
              · exact absurd rfl (hna _ List.mem_cons_self)
              · next heq => cases heq
              · simpa using h
            obtain ⟨e1, e2⟩ := shape (ps ++ [c]) (by
              intro t ht
              rcases List.mem_append.1 ht with ht | ht
              · exact (hall t ht).head
              · rw [List.mem_singleton] at ht; subst ht; exact hch) h
            have hregc : ∀ t ∈ ps ++ [c], t.Regular reg := by
              intro t ht
              rcases List.mem_append.1 ht with ht | ht
              · exact hreg t ht
              · rw [List.mem_singleton] at ht; subst ht; exact hrc
            refine ⟨some c, ps, ⟨hall, hnd, ?_, ?_, Or.inr hna⟩, ?_, e2⟩
            · intro d hd
              cases hd
              exact ⟨hcsome, hz, h1, hu⟩
            · intro t ht
              refine hregc t ?_
              rcases List.mem_append.1 ht with ht | ht
              · exact List.mem_append.2 (Or.inr ht)
              · exact List.mem_append.2 (Or.inl ht)
            · rw [e1]
              exact sortTerms_eq_of_perm reg List.perm_append_comm hregc

/-- Such a product is made again from its operands in any order. -/
theorem product_again (reg : Registry) {K : Ctors F} {lic : Lic F} {o : Option (Expr F)} {xs rs us : List (Expr F)} (hl : LeftP reg K o xs)
    (hrs : rs = sortTerms (o.toList ++ xs)) (h2 : 2 ≤ rs.length) (hus : us.Perm rs) : productGeneral K lic us = .ok (.mul rs) := by
  have hperm : us.Perm (o.toList ++ xs) := hus.trans (hrs ▸ sortTerms_perm _)
  have h2' : 2 ≤ us.length := by rw [hus.length_eq]; exact h2
  have hoh : ∀ c ∈ o, c.head ≠ .mul := by
    intro c hc
    obtain ⟨k, _, hk, _⟩ := (hl.const c hc).again
    rcases ofExpr_cases hk with ⟨n, rfl, rfl⟩ | ⟨r, rfl, rfl⟩ | ⟨f, rfl, rfl⟩ | ⟨rfl, rfl⟩ | ⟨rfl, rfl⟩ <;>
      simp [Expr.int, Expr.rat, Expr.flt, Expr.undef, Expr.zoo, Expr.head]
  have hhead : ∀ t ∈ us, t.head ≠ .mul := by
    intro t ht
    rcases List.mem_append.1 (hperm.mem_iff.1 ht) with ht | ht
    · exact hoh t (by simpa using ht)
    · exact (hl.terms t ht).head
  have hsymx : ∀ t ∈ xs, sym t = true := by
    intro t ht; unfold sym; rw [(hl.terms t ht).sym]; rfl
  have hsymo : ∀ c ∈ o, sym c = false := by
    intro c hc
    obtain ⟨k, _, hk, _⟩ := (hl.const c hc).again
    unfold sym; rw [hk]; rfl
  have hfil : (us.filter sym).Perm xs := by
    refine (hperm.filter _).trans ?_
    rw [List.filter_append, List.filter_eq_self.2 hsymx, List.filter_eq_nil_iff.2 (fun c hc => by
      rw [hsymo c (by simpa using hc)]; simp)]
    simp
  have hcon : us.filterMap Coeff.ofExpr = o.toList.filterMap Coeff.ofExpr := by
    have hp : (us.filterMap Coeff.ofExpr).Perm (o.toList.filterMap Coeff.ofExpr) := by
      refine (hperm.filterMap _).trans ?_
      rw [List.filterMap_append, List.filterMap_eq_nil_iff.2 (fun t ht => (hl.terms t ht).sym)]
      simp
    cases o with
    | none => exact List.perm_nil.1 hp
    | some c =>
      obtain ⟨k, _, hk, _⟩ := (hl.const c rfl).again
      have e : (some c).toList.filterMap Coeff.ofExpr = [k] := by simp [hk]
      rw [e] at hp ⊢
      exact List.perm_singleton.1 hp
  have hterms : ∀ t ∈ us.filter sym, Factor K t := fun t ht => hl.terms t (hfil.mem_iff.1 ht)
  have hnd : ((us.filter sym).map fun t => (powerOf t).1).Nodup := ((hfil.map _).nodup_iff).2 hl.keys
  have hreg : ∀ t ∈ us, t.Regular reg := fun t ht => hl.regular t (hperm.mem_iff.1 ht)
  have hsorted : rs.Pairwise fun a b => termLe a b = true := by rw [hrs]; exact sortTerms_sorted reg hl.regular
  have done : ∀ l : List (Expr F), us.Perm l → maybeNewMul l = .mul rs := by
    intro l hpl
    rcases l with _ | ⟨a, _ | ⟨b, l⟩⟩
    · rw [hpl.length_eq] at h2'; simp at h2'
    · rw [hpl.length_eq] at h2'; simp at h2'
    · show Expr.mul (sortTerms _) = _
      have hra : ∀ x ∈ a :: b :: l, x.Regular reg := fun x hx => hreg x (hpl.mem_iff.2 hx)
      rw [sorted_eq reg ((sortTerms_perm _).trans (hpl.symm.trans hus)) (fun x hx => hra x ((sortTerms_perm _).mem_iff.1 hx)) (sortTerms_sorted reg hra) hsorted]
  have hfold : ∀ k', foldRes mulCoeff (.int 1) (us.filterMap Coeff.ofExpr) = .ok k' →
      foldRes (mulTerm K lic) ⟨.int 1, []⟩ us = .ok ⟨k', (us.filter sym).map powerOf⟩ := by
    intro k' hk
    have := fold_freshP K lic us (.int 1) k' [] (by simpa using hnd) hk
    simpa using this
  have hkeep : ((us.filter sym).map powerOf).filter (fun be => !isInt 0 be.2) = (us.filter sym).map powerOf := by
    rw [List.filter_eq_self]
    intro be hbe
    obtain ⟨t, ht, rfl⟩ := List.mem_map.1 hbe
    rw [(hterms t ht).nonzero]; rfl
  have hsteps : ∀ k', foldRes (createStep K) (k', []) ((us.filter sym).map powerOf) = .ok (k', us.filter sym) := by
    intro k'
    rw [createSteps_again _ _ hterms]; simp
  unfold productGeneral
  rw [mulVisits_flat, flatMuls_self us hhead]
  cases o with
  | none =>
    rw [hfold (.int 1) (by rw [hcon]; rfl)]
    simp only [createProduct, hkeep, hsteps, Coeff.toExpr]
    have hx : us.Perm (us.filter sym) := hperm.trans (by simpa using hfil.symm)
    unfold finishProduct
    have hz : (isInt 0 (Expr.int 1 : Expr F) || isUndef (Expr.int 1 : Expr F)) = false := by rfl
    have ho : isInt 1 (Expr.int 1 : Expr F) = true := isInt_iff.2 rfl
    rw [hz, ho]
    simp only [Bool.false_eq_true, if_false]
    rw [done _ hx]
  | some c =>
    obtain ⟨⟨j, j', hj, ha, ht⟩, hz, ho, hu⟩ := hl.const c rfl
    rw [hfold j' (by
      rw [hcon]
      have e : (some c).toList.filterMap Coeff.ofExpr = [j] := by simp [hj]
      rw [e]
      simp only [foldRes, ha])]
    simp only [createProduct, hkeep, hsteps, ht]
    have hna : ∀ t ∈ us.filter sym, t.head ≠ .add := by
      rcases hl.noSum with h | h
      · cases h
      · exact fun t ht => h t (hfil.mem_iff.1 ht)
    have hx : us.Perm (us.filter sym ++ [c]) := by
      refine hperm.trans (List.Perm.trans (l₂ := [c] ++ us.filter sym) (hfil.symm.cons c) List.perm_append_comm)
    unfold finishProduct
    rw [hz, hu, ho]
    simp only [Bool.or_self, Bool.false_eq_true, if_false]
    split
    · next us heq _ => exact absurd rfl (hna (.add us) (by rw [heq]; exact List.mem_cons_self))
    · next heq => cases heq
    · rw [done _ hx]

/-! ### The constructors -/

theorem length_two {α : Type} {a b : α} {o : Option α} {xs : List α} (h : [a, b].Perm (o.toList ++ xs)) :
    (o = none ∧ a ∈ xs ∧ b ∈ xs) ∨ ∃ c t, o = some c ∧ xs = [t] ∧ ((a = c ∧ b = t) ∨ (a = t ∧ b = c)) := by
  cases o with
  | none => exact Or.inl ⟨rfl, h.mem_iff.1 (by simp), h.mem_iff.1 (by simp)⟩
  | some c =>
    have hl := h.length_eq
    rcases xs with _ | ⟨t, _ | ⟨u, l⟩⟩
    · simp at hl
    · refine Or.inr ⟨c, t, rfl, rfl, ?_⟩
      have h : [a, b].Perm [c, t] := h
      have ha : a ∈ [c, t] := h.mem_iff.1 (by simp)
      rcases List.mem_cons.1 ha with rfl | ha
      · rw [List.perm_cons, List.singleton_perm] at h
        cases h
        exact Or.inl ⟨rfl, rfl⟩
      · rw [List.mem_singleton] at ha
        subst ha
        have h2 := h.trans (List.Perm.swap _ _ _)
        rw [List.perm_cons, List.singleton_perm] at h2
        cases h2
        exact Or.inr ⟨rfl, rfl⟩
    · simp at hl

theorem addFrom_again (reg : Registry) {K : Ctors F} {o : Option (Expr F)} {xs rs us : List (Expr F)} (hl : Left reg K o xs)
    (hrs : rs = sortTerms (o.toList ++ xs)) (h2 : 2 ≤ rs.length) (hus : us.Perm rs) (hz : Expr.zoo ∉ rs ∨ rs.length ≠ 2) :
    addFrom K us = .ok (.add rs) := by
  have hg := sum_again reg hl hrs h2 hus
  have hlen := hus.length_eq
  rcases us with _ | ⟨a, _ | ⟨b, _ | ⟨d, l⟩⟩⟩
  · rw [← hlen] at h2; simp at h2
  · rw [← hlen] at h2; simp at h2
  · have hz : Expr.zoo ∉ rs := hz.resolve_right fun h => h (by rw [← hlen]; rfl)
    have hz' : a ≠ .zoo ∧ b ≠ .zoo := ⟨fun e => hz (hus.mem_iff.1 (by simp [e])), fun e => hz (hus.mem_iff.1 (by simp [e]))⟩
    have hk : ∀ c ∈ o, c ≠ .zoo → ∃ j, Coeff.ofExpr c = some j ∧ j ≠ .zoo ∧ j ≠ .undef := by
      intro c hc hne
      obtain ⟨j, _, hj, _⟩ := (hl.const c hc).again
      refine ⟨j, hj, ?_, ?_⟩
      · rintro rfl
        rcases ofExpr_cases hj with ⟨_, _, e⟩ | ⟨_, _, e⟩ | ⟨_, _, e⟩ | ⟨_, e⟩ | ⟨e, _⟩ <;> first | exact absurd e hne | cases e
      · rintro rfl
        have hd := (hl.const c hc).defined
        rcases ofExpr_cases hj with ⟨_, _, e⟩ | ⟨_, _, e⟩ | ⟨_, _, e⟩ | ⟨e, _⟩ | ⟨_, e⟩
        · cases e
        · cases e
        · cases e
        · rw [isUndef_iff.2 e] at hd; cases hd
        · cases e
    have htwo : addTwo a b = .ok none := by
      rcases length_two (hus.trans (hrs ▸ sortTerms_perm _)) with ⟨_, ha, hb⟩ | ⟨c, t, ho, hxs, ⟨ha, hb⟩ | ⟨ha, hb⟩⟩
      · unfold addTwo
        rw [(hl.terms a ha).sym, (hl.terms b hb).sym]
      · obtain ⟨j, hj, n1, n2⟩ := hk c ho (ha ▸ hz'.1)
        unfold addTwo
        rw [ha, hb, hj, (hl.terms t (by rw [hxs]; simp)).sym]
        cases j <;> first | rfl | exact absurd rfl n1 | exact absurd rfl n2
      · obtain ⟨j, hj, n1, n2⟩ := hk c ho (hb ▸ hz'.2)
        unfold addTwo
        rw [ha, hb, hj, (hl.terms t (by rw [hxs]; simp)).sym]
        cases j <;> first | rfl | exact absurd rfl n1 | exact absurd rfl n2
    simp only [addFrom, htwo]
    exact hg
  · exact hg

theorem addFrom_general {K : Ctors F} {ts rs : List (Expr F)} (h2 : 2 ≤ ts.length) (h : addFrom K ts = .ok (.add rs)) :
    sumGeneral K ts = .ok (.add rs) := by
  rcases ts with _ | ⟨a, _ | ⟨b, _ | ⟨c, l⟩⟩⟩
  · simp at h2
  · simp at h2
  · unfold addFrom at h
    cases h1 : addTwo a b with
    | error e => simp only [h1] at h; cases h
    | ok o =>
      cases o with
      | none => simp only [h1] at h; exact h
      | some x =>
        simp only [h1] at h
        cases h
        exfalso
        have he : ∀ {k : Coeff F} {x : Expr F}, k.toExpr = .ok x → x ≠ .add rs := by
          intro k x hk e
          subst e
          cases k with
          | rat r =>
            have hk : ratExpr r = .ok (.add rs) := hk
            unfold ratExpr at hk
            split at hk
            · cases hk
            · cases hk
            · cases hk
          | flt f =>
            have hk : (Except.ok (floatExpr f) : Res (Expr F)) = .ok (.add rs) := hk
            unfold floatExpr at hk
            split at hk
            · cases hk
            · split at hk <;> cases hk
          | _ => cases hk
        unfold addTwo at h1
        cases hx : Coeff.ofExpr a with
        | some x =>
          cases hy : Coeff.ofExpr b with
          | some y =>
            simp only [hx, hy] at h1
            cases hc : addCoeff x y with
            | error e => simp only [hc] at h1; cases h1
            | ok c =>
              simp only [hc] at h1
              cases ht : c.toExpr with
              | error e => simp only [ht] at h1; cases h1
              | ok r' =>
                simp only [ht] at h1
                cases h1
                exact he ht rfl
          | none =>
            simp only [hx, hy] at h1
            cases x <;> cases h1
        | none =>
          cases hy : Coeff.ofExpr b with
          | some y =>
            simp only [hx, hy] at h1
            cases y <;> cases h1
          | none => simp only [hx, hy] at h1; cases h1
  · exact h

theorem mulTwo_general {K : Ctors F} {lic : Lic F} {x y : Expr F} (h1 : ¬ (x.head = .add ∧ isNumeric y = true)) (h2 : ¬ (y.head = .add ∧ isNumeric x = true)) :
    mulTwo K lic x y = productGeneral K lic [x, y] := by
  unfold mulTwo
  split
  · rw [if_neg fun hy => h1 ⟨rfl, hy⟩]
  · rw [if_neg fun hx => h2 ⟨rfl, hx⟩]
  · rfl

theorem numeric_not_sym {t : Expr F} (h : Coeff.ofExpr t = none) : isNumeric t = false := not_numeric_of_not_const h

theorem mulFrom_again (reg : Registry) {K : Ctors F} {lic : Lic F} {o : Option (Expr F)} {xs rs us : List (Expr F)} (hl : LeftP reg K o xs)
    (hrs : rs = sortTerms (o.toList ++ xs)) (h2 : 2 ≤ rs.length) (hus : us.Perm rs) : mulFrom K lic us = .ok (.mul rs) := by
  have hg := product_again reg (lic := lic) hl hrs h2 hus
  have hlen := hus.length_eq
  rcases us with _ | ⟨a, _ | ⟨b, _ | ⟨d, l⟩⟩⟩
  · rw [← hlen] at h2; simp at h2
  · rw [← hlen] at h2; simp at h2
  · have hno : ∀ c ∈ o, c.head ≠ .add := by
      intro c hc
      obtain ⟨k, _, hk, _⟩ := (hl.const c hc).again
      rcases ofExpr_cases hk with ⟨n, rfl, rfl⟩ | ⟨r, rfl, rfl⟩ | ⟨f, rfl, rfl⟩ | ⟨rfl, rfl⟩ | ⟨rfl, rfl⟩ <;>
        simp [Expr.int, Expr.rat, Expr.flt, Expr.undef, Expr.zoo, Expr.head]
    show mulTwo K lic a b = _
    rw [mulTwo_general, hg]
    · rcases length_two (hus.trans (hrs ▸ sortTerms_perm _)) with ⟨_, ha, hb⟩ | ⟨c, t, ho, hxs, ⟨ha, hb⟩ | ⟨ha, hb⟩⟩
      · rw [numeric_not_sym (hl.terms b hb).sym]; simp
      · exact fun h => hno c ho (ha ▸ h.1)
      · rintro ⟨h, _⟩
        rcases hl.noSum with e | e
        · rw [e] at ho; cases ho
        · exact e t (by rw [hxs]; simp) (ha ▸ h)
    · rcases length_two (hus.trans (hrs ▸ sortTerms_perm _)) with ⟨_, ha, hb⟩ | ⟨c, t, ho, hxs, ⟨ha, hb⟩ | ⟨ha, hb⟩⟩
      · rw [numeric_not_sym (hl.terms a ha).sym]; simp
      · rintro ⟨h, _⟩
        rcases hl.noSum with e | e
        · rw [e] at ho; cases ho
        · exact e t (by rw [hxs]; simp) (hb ▸ h)
      · exact fun h => hno c ho (hb ▸ h.1)
  · exact hg

theorem mulFrom_general {K : Ctors F} {lic : Lic F} {ts rs : List (Expr F)} (h2 : 2 ≤ ts.length)
    (hs : (∀ t ∈ flatMuls ts, (powerOf t).1.head ≠ .add) ∨ ∀ t ∈ flatMuls ts, Coeff.ofExpr t = none) (h : mulFrom K lic ts = .ok (.mul rs)) :
    productGeneral K lic ts = .ok (.mul rs) := by
  have hsum : ∀ x : Expr F, x.head = .add → flatMuls [x] = [x] ∧ (powerOf x).1.head = .add := by
    rintro ⟨hd, as⟩ hx
    have hx : hd = .add := hx
    subst hx
    exact ⟨rfl, rfl⟩
  have hnum : ∀ x : Expr F, isNumeric x = true → flatMuls [x] = [x] ∧ Coeff.ofExpr x ≠ none := by
    intro x hx
    refine ⟨?_, fun e => by rw [numeric_not_sym e] at hx; cases hx⟩
    obtain ⟨hd, as⟩ := x
    cases hd <;> first | rfl | cases hx
  rcases ts with _ | ⟨a, _ | ⟨b, _ | ⟨c, l⟩⟩⟩
  · simp at h2
  · simp at h2
  · have hcat : flatMuls [a, b] = flatMuls [a] ++ flatMuls [b] := by simp [flatMuls]
    rw [hcat] at hs
    have h : mulTwo K lic a b = _ := h
    rwa [mulTwo_general] at h
    · rintro ⟨ha, hb⟩
      rw [(hsum a ha).1, (hnum b hb).1] at hs
      rcases hs with hs | hs
      · exact hs a (by simp) (hsum a ha).2
      · exact (hnum b hb).2 (hs b (by simp))
    · rintro ⟨hb, ha⟩
      rw [(hnum a ha).1, (hsum b hb).1] at hs
      rcases hs with hs | hs
      · exact hs b (by simp) (hsum b hb).2
      · exact (hnum a ha).2 (hs a (by simp))
  · exact h

end

end Wf.Sym.Args
