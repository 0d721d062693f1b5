import Verif.Sym.LowerSound
import Verif.Sym.SubstituteLemmas

/-! # Lowering whole functions: the canonical order, the outputs -/

namespace Wf.Sym
open Complex
open Wf.Gen (Prim Op Interp Writes)

variable {F : Type} [DecidableEq F] [FnSem F] {lic : Lic F} {ρ : Env F} {K : Ctors F}

theorem canonSort_perm (ts : List (Expr F)) : (canonSort ts).Perm ts := List.perm_insertionSort _ _

theorem mapRes_rel {α β : Type} {f : α → Res β} {P : α → β → Prop} {as : List α} {bs : List β} (hP : ∀ a ∈ as, ∀ b, f a = .ok b → P a b)
    (h : mapRes f as = .ok bs) : List.Forall₂ P as bs := mapRes_forall h hP

theorem carries_refl {e : Expr F} (hg : Good e) : Carries lic ρ ρ e e := ⟨hg, fun _ _ hz => hz⟩

/-- Sorting keeps the value. -/
theorem sortExpr_ok (hK : Sound lic ρ K) (m : Nat) : ∀ (n : Nat) (e r : Expr F), Plain e → Good e → sortExpr K m n e = .ok r → Carries lic ρ ρ e r
  | 0, _, _, _, _, h => by cases h
  | n + 1, .node hd as, r, hp, hg, h => by
    obtain ⟨hp1, hp2⟩ := plain_node.1 hp
    have hg2 := (good_node.1 hg).2
    have hR : ∀ x ∈ as, ∀ y, sortExpr K m n x = .ok y → Carries lic ρ ρ x y := fun x hx y hy => sortExpr_ok hK m n x y (hp2 x hx) (hg2 x hx) hy
    change sortBody K m (sortExpr K m n) (.node hd as) = .ok r at h
    have hother : (if hd.isLeaf then .ok (.node hd as) else mapChildren K m (sortExpr K m n) (.node hd as)) = Except.ok r →
        Carries lic ρ ρ (.node hd as) r := by
      intro h
      cases hl : hd.isLeaf with
      | true => simp only [hl, if_true, Except.ok.injEq] at h; subst h; exact carries_refl hg
      | false =>
        simp only [hl, Bool.false_eq_true, if_false] at h
        exact mapChildren_ok (ρ' := ρ) hK rfl (leaf_of_not_interp hp1 hl) hR h
    cases hd <;> first
      | exact hother h
      | skip
    rotate_left
    · obtain ⟨bs, hb, h⟩ := andThen_ok h
      have hc := mapRes_rel hR hb
      by_cases hl : bs.length < 2
      · rw [if_pos hl] at h; cases h
      rw [if_neg hl] at h
      cases h
      refine ⟨good_node.2 ⟨trivial, fun t ht => carries_good hc t ((canonSort_perm bs).mem_iff.1 ht)⟩, fun ht z hz => ?_⟩
      rw [show eval ρ (.node .add as) = sumO (as.map (eval ρ)) from eval_add ρ as] at hz
      rw [eval_add, sumO_perm ((canonSort_perm bs).map _)]
      exact carries_sum hc ht z hz
    · obtain ⟨bs, hb, h⟩ := andThen_ok h
      have hc := mapRes_rel hR hb
      by_cases hl : bs.length < 2 ∨ 1 < (bs.filter isNumeric).length
      · rw [if_pos hl] at h; cases h
      rw [if_neg hl] at h
      cases h
      rw [not_or] at hl
      refine ⟨good_node.2 ⟨⟨?_, ?_⟩, fun t ht => carries_good hc t ((canonSort_perm bs).mem_iff.1 ht)⟩, fun ht z hz => ?_⟩
      · rw [(canonSort_perm bs).length_eq]; omega
      · rw [((canonSort_perm bs).filter isNumeric).length_eq]; omega
      rw [show eval ρ (.node .mul as) = prodO (as.map (eval ρ)) from eval_mul ρ as] at hz
      rw [eval_mul, prodO_perm ((canonSort_perm bs).map _)]
      exact carries_prod hc ht z hz

/-! ## Outputs -/

theorem written_ext {s s' : Low F} (h : Ext s s') : written s'.g = written s.g := by
  obtain ⟨l, h1, h2⟩ := h.fresh
  unfold written
  rw [h1, List.filterMap_append]
  have hl : l.filterMap (fun v => savedKey (s'.g.node v).op) = [] := by
    rw [List.filterMap_eq_nil_iff]
    intro v hv
    have := h2 v hv
    cases ho : (s'.g.node v).op <;> first | rfl | (exact absurd ho (this _))
  rw [hl, List.append_nil]
  refine List.filterMap_congr fun v hv => ?_
  rw [h.node v hv]

theorem written_save {s : Low F} (h : LInv ρ s) (key : Nat) (t : Prim) (v : Nat) : written (s.push (.save key) t [v]).1.g = written s.g ++ [key] := by
  have he := push_ext0 h (.save key) t [v]
  unfold written
  rw [show (s.push (.save key) t [v]).1.g.ops = s.g.ops ++ [s.g.next] from rfl, List.filterMap_append]
  congr 1
  · refine List.filterMap_congr fun w hw => ?_
    rw [he.node w hw]
  · simp [show (s.push (.save key) t [v]).1.g.node s.g.next = Gen.mkNode (.save key) [v] from if_pos rfl, Gen.mkNode, savedKey]

/-- Written outputs stay written. -/
theorem writes_ext {s s' : Low F} (h : LInv ρ s) (he : Ext0 s s') {V : Type} [Gen.Arith V] {I : Interp V} {key : Nat} {x : V} (hw : Writes I s.g key x) : Writes I s'.g key x := by
  obtain ⟨v, hv, h1, h2⟩ := hw
  refine ⟨v, he.mem v hv, by rw [he.node v hv]; exact h1, ?_⟩
  rw [he.node v hv, ← h2]
  refine List.map_congr_left fun a ha => he.run I a ?_
  obtain ⟨l, l', hl⟩ := List.append_of_mem hv
  rw [hl]
  exact List.mem_append_left _ (h.inOrder l v l' hl a ha)

theorem writes_save {s : Low F} (h : LInv ρ s) (key : Nat) (t : Prim) {v : Nat} (hv : v ∈ s.g.ops) {V : Type} [Gen.Arith V] (I : Interp V) :
    Writes I (s.push (.save key) t [v]).1.g key (Gen.run I s.g v) := by
  refine ⟨s.g.next, List.mem_append_right _ (by simp), ?_, ?_⟩
  · rw [show (s.push (.save key) t [v]).1.g.node s.g.next = Gen.mkNode (.save key) [v] from if_pos rfl]; rfl
  · rw [show (s.push (.save key) t [v]).1.g.node s.g.next = Gen.mkNode (.save key) [v] from if_pos rfl]
    simp only [Gen.mkNode, Op.commutative, List.map_cons, List.map_nil]
    exact congrArg (fun y => [y]) ((push_ext0 h (.save key) t [v]).run I v hv)

theorem lowerElements_ok {R : Lowering F} (hR : RecOk ρ R) : ∀ {es : List (Expr F)} {s : Low F} {p : Low F × List Nat}, (∀ e ∈ es, Good e) → LInv ρ s →
    lowerElements R s es = .ok p → LInv ρ p.1 ∧ Ext s p.1 ∧ (∀ v ∈ p.2, v ∈ p.1.g.ops) ∧ (∀ v ∈ p.2, p.1.ty v = .floating) ∧
      ∀ zs, List.Forall₂ (fun e z => eval ρ e = some z) es zs → AllAre ρ p.1 p.2 zs := by
  intro es
  induction es with
  | nil =>
    intro s p _ h hr
    cases hr
    refine ⟨h, Ext.refl s, by simp, by simp, fun zs hz => ?_⟩
    cases hz
    exact .nil
  | cons e es ih =>
    intro s p hg h hr
    unfold lowerElements at hr
    obtain ⟨q, hq, hr⟩ := andThen_ok hr
    obtain ⟨q', hq', hr⟩ := andThen_ok hr
    cases hr
    have k1 := hR s e q (hg e List.mem_cons_self) h hq
    have k2 := maybeCast_ok k1.inv k1.mem .floating
    obtain ⟨i1, i2, i3, i5, i4⟩ := ih (fun x hx => hg x (List.mem_cons_of_mem _ hx)) k2.inv hq'
    refine ⟨i1, k1.ext.trans (k2.ext.trans i2), ?_, ?_, fun zs hz => ?_⟩
    · intro v hv
      rcases List.mem_cons.1 hv with rfl | hv
      · exact i2.mem _ k2.mem
      · exact i3 v hv
    · intro v hv
      rcases List.mem_cons.1 hv with rfl | hv
      · exact (i2.ty _ k2.mem).trans k2.ty
      · exact i5 v hv
    · cases hz with
      | cons h1 h2 => exact .cons ((k2.val _ (k1.val _ h1) fun _ => trivial).ext k2.mem i2.toExt0) (i4 _ h2)

theorem carries_values {es es' : List (Expr F)} (hc : List.Forall₂ (Carries lic ρ ρ) es es') (hL : lic.TrueAt ρ) {zs : List ℂ}
    (hz : List.Forall₂ (fun e z => eval ρ e = some z) es zs) : List.Forall₂ (fun e z => eval ρ e = some z) es' zs := by
  induction hc generalizing zs with
  | nil => cases hz; exact .nil
  | cons a _ ih => cases hz with | cons h1 h2 => exact .cons (a.2 hL _ h1) (ih h2)

/-- What adding an output achieves. -/
structure Added (ρ : Env F) (s : Low F) (key : Nat) (o : Output F) (s' : Low F) : Prop where
  inv : LInv ρ s'
  ext : Ext0 s s'
  written : written s'.g = written s.g ++ [key]
  val : NotesOk ρ s'.notes → ∀ {V : Type} [Gen.Arith V] {ι : ℂ → V} (I : Interp V), AgreesIn ι I ρ s'.leaves → ∀ x, OutputValueIn ι I ρ o x → Writes I s'.g key x

theorem addOutput_ok (hK : Sound lic ρ K) (hL : lic.TrueAt ρ) (hT : TypedEnv ρ) {m n : Nat} {s s' : Low F} {key : Nat} {o : Output F}
    (ho : ∀ e ∈ o.exprs, Plain e ∧ Good e) (h : LInv ρ s) (hr : addOutput K m n s key o = .ok s') : Added ρ s key o s' := by
  cases o with
  | scalar e t =>
    unfold addOutput at hr
    obtain ⟨e', he', hr⟩ := andThen_ok hr
    obtain ⟨p, hp, hr⟩ := andThen_ok hr
    cases hr
    obtain ⟨hpl, hg⟩ := ho e List.mem_cons_self
    have hc := sortExpr_ok hK m n e e' hpl hg he'
    have k1 := lower_ok hK hL hT n s e' p hc.1 h hp
    have k2 := maybeCast_ok k1.inv k1.mem t
    have hx := push_ext0 k2.inv (.save key) .floating [(maybeCast p.1 p.2 t).2]
    refine ⟨push_inv k2.inv (by simpa using k2.mem) (Gen.OpOk.one rfl) trivial, k1.ext.toExt0.trans (k2.ext.toExt0.trans hx), ?_, ?_⟩
    · rw [written_save k2.inv, written_ext k2.ext, written_ext k1.ext]
    · rintro hn V _ ι I hI _ ⟨x, hv, ht, rfl⟩
      have := k2.val x (k1.val x (hc.2 hL x hv)) (fun _ => ht)
      rw [← (this (hn.mono hx.notes)).2 I (hI.mono hx.leaves)]
      exact writes_save k2.inv key _ k2.mem I
  | matrix r c es =>
    unfold addOutput at hr
    obtain ⟨es', hes, hr⟩ := andThen_ok hr
    obtain ⟨p, hp, hr⟩ := andThen_ok hr
    cases hr
    have hc : List.Forall₂ (Carries lic ρ ρ) es es' := mapRes_rel (fun a ha b hb => sortExpr_ok hK m n a b (ho a ha).1 (ho a ha).2 hb) hes
    obtain ⟨i1, i2, i3, i5, i4⟩ := lowerElements_ok (lower_ok hK hL hT n) (carries_good hc) h hp
    have k2 := push_ok i1 (op := .construct (matrixCode r c)) (t := .floating) i3 (Gen.OpOk.free _ rfl)
      (by intro a ha; obtain ⟨v, hv, rfl⟩ := List.mem_map.1 ha; exact i5 v hv)
    have hx := push_ext0 k2.inv (.save key) .floating [(p.1.push (.construct (matrixCode r c)) .floating p.2).2]
    refine ⟨push_inv k2.inv (by simpa using k2.mem) (Gen.OpOk.one rfl) trivial, i2.toExt0.trans (k2.ext.toExt0.trans hx), ?_, ?_⟩
    · rw [written_save k2.inv, written_ext k2.ext, written_ext i2]
    · rintro hn V _ ι I hI x ⟨zs, hz, rfl⟩
      have hz' := carries_values hc hL hz
      have hnp := (hn.mono hx.notes).mono k2.ext.notes
      have hIp := (hI.mono hx.leaves).mono k2.ext.leaves
      have := (i4 zs hz').run hnp hIp
      rw [← this, ← k2.run I]
      exact writes_save k2.inv key _ k2.mem I

/-- What lowering a function achieves. -/
theorem lowerFunction_ok (hK : Sound lic ρ K) (hL : lic.TrueAt ρ) (hT : TypedEnv ρ) {m n : Nat} : ∀ {outs : List (Nat × Output F)} {s s' : Low F},
    (∀ o ∈ outs, ∀ e ∈ o.2.exprs, Plain e ∧ Good e) → LInv ρ s → lowerFunction K m n s outs = .ok s' →
      LInv ρ s' ∧ Ext0 s s' ∧ written s'.g = written s.g ++ outs.map Prod.fst ∧
      (NotesOk ρ s'.notes → ∀ {V : Type} [Gen.Arith V] {ι : ℂ → V} (I : Interp V), AgreesIn ι I ρ s'.leaves → ∀ o ∈ outs, ∀ x, OutputValueIn ι I ρ o.2 x → Writes I s'.g o.1 x) := by
  intro outs
  induction outs with
  | nil =>
    intro s s' _ h hr
    cases hr
    exact ⟨h, Ext0.refl s, by simp, by simp⟩
  | cons o os ih =>
    intro s s' hg h hr
    obtain ⟨key, o⟩ := o
    unfold lowerFunction at hr
    obtain ⟨s1, h1, hr⟩ := andThen_ok hr
    have k := addOutput_ok hK hL hT (hg _ List.mem_cons_self) h h1
    obtain ⟨i1, i2, i3, i4⟩ := ih (fun o ho => hg o (List.mem_cons_of_mem _ ho)) k.inv hr
    refine ⟨i1, k.ext.trans i2, by rw [i3, k.written]; simp, fun hn V _ ι I hI o' ho' x hx => ?_⟩
    rcases List.mem_cons.1 ho' with rfl | ho'
    · exact writes_ext k.inv i2 (k.val (hn.mono i2.notes) I (hI.mono i2.leaves) x hx)
    · exact i4 hn I hI o' ho' x hx

/-- A program that writes each output once writes one value to it. -/
theorem writes_unique {g : Gen.Graph} (hd : (written g).Nodup) (ho : g.ops.Nodup) {V : Type} [Gen.Arith V] {I : Interp V} {key : Nat} {x y : V} (hx : Writes I g key x)
    (hy : Writes I g key y) : x = y := by
  obtain ⟨v, hv, h1, h2⟩ := hx
  obtain ⟨w, hw, h3, h4⟩ := hy
  have : v = w := by
    by_contra hne
    unfold written at hd
    clear ho h2 h4
    generalize g.ops = ops at *
    induction ops with
    | nil => simp at hv
    | cons a l ih =>
      have hmem : ∀ u ∈ l, (g.node u).op = .save key → key ∈ l.filterMap fun v => savedKey (g.node v).op :=
        fun u hu hk => List.mem_filterMap.2 ⟨u, hu, by rw [hk]; rfl⟩
      rw [List.filterMap_cons] at hd
      rcases List.mem_cons.1 hv with rfl | hv' <;> rcases List.mem_cons.1 hw with rfl | hw'
      · exact hne rfl
      · simp only [h1, savedKey] at hd
        exact (List.nodup_cons.1 hd).1 (hmem w hw' h3)
      · simp only [h3, savedKey] at hd
        exact (List.nodup_cons.1 hd).1 (hmem v hv' h1)
      · refine ih ?_ hv' hw'
        revert hd
        cases (g.node a).op <;> intro hd <;> first | exact hd | exact (List.nodup_cons.1 hd).2
  subst this
  rw [h2] at h4
  simpa using h4

/-! ## Programs with the same listing -/

theorem listing_eq {s s' : Low F} (h : s'.listing = s.listing) :
    s'.g.ops = s.g.ops ∧ (∀ v ∈ s.g.ops, s'.g.node v = s.g.node v ∧ s'.ty v = s.ty v) ∧ s'.g.next = s.g.next ∧ s'.leaves = s.leaves ∧ s'.notes = s.notes := by
  simp only [Low.listing, Listing.mk.injEq] at h
  obtain ⟨h1, h2, h3, h4⟩ := h
  have ho : s'.g.ops = s.g.ops := by
    have := congrArg (List.map Prod.fst) h1
    simpa [List.map_map, Function.comp_def] using this
  refine ⟨ho, fun v hv => ?_, h2, h3, h4⟩
  rw [ho] at h1
  have := List.map_inj_left.1 h1 v hv
  simp only [Prod.mk.injEq, true_and] at this
  exact this

theorem listing_run {s s' : Low F} (h : s'.listing = s.listing) {V : Type} [Gen.Arith V] (I : Interp V) : Gen.run I s'.g = Gen.run I s.g := by
  obtain ⟨h1, h2, _⟩ := listing_eq h
  unfold Gen.run
  rw [h1]
  exact Gen.runFrom_congr I _ fun v hv => (h2 v hv).1

theorem listing_writes {s s' : Low F} (h : s'.listing = s.listing) {V : Type} [Gen.Arith V] {I : Interp V} {key : Nat} {x : V} (hw : Writes I s'.g key x) : Writes I s.g key x := by
  obtain ⟨h1, h2, _⟩ := listing_eq h
  obtain ⟨v, hv, k1, k2⟩ := hw
  rw [h1] at hv
  rw [(h2 v hv).1] at k1 k2
  rw [listing_run h] at k2
  exact ⟨v, hv, k1, k2⟩

theorem listing_written {s s' : Low F} (h : s'.listing = s.listing) : written s'.g = written s.g := by
  obtain ⟨h1, h2, _⟩ := listing_eq h
  unfold written
  rw [h1]
  exact List.filterMap_congr fun v hv => by rw [(h2 v hv).1]

theorem listing_wf {s s' : Low F} (h : s'.listing = s.listing) (hw : Gen.WF s'.g) : Gen.WF s.g := by
  obtain ⟨h1, h2, h3, _⟩ := listing_eq h
  obtain ⟨a1, a2, a3, a4, a5, a6, a7⟩ := hw
  rw [h1] at a1 a2 a3 a4 a5 a6 a7
  refine ⟨a1, h3 ▸ a2, ?_, ?_, ?_, ?_, ?_⟩ <;> intro v hv <;> rw [← (h2 v hv).1]
  · exact a3 v hv
  · exact a4 v hv
  · exact a5 v hv
  · exact a6 v hv
  · exact a7 v hv

theorem listing_inOrder {s s' : Low F} (h : s'.listing = s.listing) (ho : Gen.InOrder s'.g) : Gen.InOrder s.g := by
  obtain ⟨h1, h2, _⟩ := listing_eq h
  intro l v l' hl
  rw [← (h2 v (by rw [hl]; simp)).1]
  exact ho l v l' (h1.trans hl)

theorem listing_typed {s s' : Low F} (h : s'.listing = s.listing) (hw : Gen.WF s.g) (ht : WellTyped s') : WellTyped s := by
  obtain ⟨h1, h2, _⟩ := listing_eq h
  intro v hv
  have := ht v (h1 ▸ hv)
  rw [(h2 v hv).1, (h2 v hv).2, List.map_congr_left fun a ha => (h2 a (hw.closed v hv a ha)).2] at this
  exact this

theorem OutputValue.in {I : Interp ℂ} {o : Output F} {x : ℂ} (h : OutputValue I ρ o x) : OutputValueIn id I ρ o x := by
  cases o with
  | scalar e t => exact ⟨x, h.1, h.2, rfl⟩
  | matrix r c es =>
    obtain ⟨zs, h1, h2⟩ := h
    exact ⟨zs, h1, by rw [List.map_id]; exact h2⟩

/-- What a lawful lowering achieves. -/
theorem lawful_ok {nK m n : Nat} {outs : List (Nat × Output F)} {s : Low F} (h : LawfulLowering ρ nK m n outs s) (hT : TypedEnv ρ)
    (hg : ∀ o ∈ outs, ∀ e ∈ o.2.exprs, Plain e ∧ Good e) : Gen.WF s.g ∧ Gen.InOrder s.g ∧ WellTyped s ∧ written s.g = outs.map Prod.fst ∧
      (NotesOk ρ s.notes → ∀ {V : Type} [Gen.Arith V] {ι : ℂ → V} (I : Interp V), AgreesIn ι I ρ s.leaves → ∀ o ∈ outs, ∀ x, OutputValueIn ι I ρ o.2 x → Writes I s.g o.1 x) := by
  obtain ⟨lic, hl, hr⟩ := h.lawful
  cases hf : lowerFunction (ctors lic nK) m n Low.empty outs with
  | error e => rw [hf] at hr; cases hr
  | ok s' =>
    rw [hf] at hr
    have he : s'.listing = s.listing := by simpa [Except.map] using hr
    obtain ⟨h1, _, h3, h4⟩ := lowerFunction_ok (ctors_sound lic ρ nK) hl hT hg (LInv.empty ρ) hf
    obtain ⟨_, _, _, e1, e2⟩ := listing_eq he
    have hw := listing_wf he h1.wf
    refine ⟨hw, listing_inOrder he h1.inOrder, listing_typed he hw h1.typed, ?_, fun hn V _ ι I hI o ho x hx => ?_⟩
    · rw [← listing_written he, h3]; rfl
    · rw [← e2] at hn
      rw [← e1] at hI
      exact listing_writes he (h4 hn I hI o ho x hx)

end Wf.Sym
