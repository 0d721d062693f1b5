import Verif.Gen.GraphLemmas

/-! # The passes keep the equations of the block -/

namespace Wf.Gen

variable {V : Type} [Arith V]

/-! ## Duplicate elimination -/

theorem lvnLoop_good {I : Interp V} {r : Nat → ℚ} {ρ : Nat → V} (vs : List Nat) : ∀ (g : Graph) (table : List Nat), Good I g r ρ →
    (∀ v ∈ vs, v ∈ g.ops) → (∀ u ∈ table, u ∈ g.ops) → vs.Pairwise (fun a b => r a < r b) → (∀ u ∈ table, ∀ v ∈ vs, r u < r v) →
    ∃ g', lvnLoop g table vs = .ok g' ∧ Good I g' r ρ ∧ g'.ops = g.ops ∧ g'.next = g.next ∧ ∀ k x, Outs g' ρ k x ↔ Outs g ρ k x := by
  induction vs with
  | nil => intro g table h _ _ _ _; exact ⟨g, rfl, h, rfl, rfl, fun _ _ => Iff.rfl⟩
  | cons v vs ih =>
    intro g table h hvs htab hp hlt
    rw [List.pairwise_cons] at hp
    have hv := hvs v List.mem_cons_self
    rw [lvnLoop]
    cases hf : table.find? fun u => g.node u == g.node v with
    | none =>
      simp only
      refine ih g (v :: table) h (fun u hu => hvs u (List.mem_cons_of_mem _ hu)) ?_ hp.2 ?_
      · intro u hu
        rcases List.mem_cons.mp hu with rfl | hu
        · exact hv
        · exact htab u hu
      · intro u hu w hw
        rcases List.mem_cons.mp hu with rfl | hu
        · exact hp.1 w hw
        · exact hlt u hu w (List.mem_cons_of_mem _ hw)
    | some u =>
      simp only
      have hu := List.mem_of_find?_eq_some hf
      have he : g.node u = g.node v := by simpa using List.find?_some hf
      have hr := hlt u hu v List.mem_cons_self
      have huv : v ≠ u := by rintro rfl; exact lt_irrefl _ hr
      have heq : ρ v = ρ u := by rw [h.sat v hv, h.sat u (htab u hu), he]
      by_cases hc : g.consumedByPhi v = true
      · rw [if_pos hc]
        obtain ⟨h1, h2⟩ := h.setNode (v := v) ⟨.copy, [u]⟩ hv ⟨(by intro h; cases h), (by intro h; cases h), fun _ => rfl, (by intro l hl; cases hl)⟩
          (by simpa using htab u hu) (by simpa using hr) (by simp only [List.map_cons, List.map_nil]; rw [I.copy]; exact heq)
          (fun k hk => ⟨u, htab u hu, huv.symm, he⟩) (fun k hk => by cases hk)
        obtain ⟨g', e, a, b, c, d⟩ := ih (g.setNode v ⟨.copy, [u]⟩) table h1 (fun w hw => hvs w (List.mem_cons_of_mem _ hw)) htab hp.2
          (fun u hu w hw => hlt u hu w (List.mem_cons_of_mem _ hw))
        exact ⟨g', e, a, b, c, fun k x => (d k x).trans (h2 k x)⟩
      · rw [if_neg hc]
        obtain ⟨g1, e1, h1, ho, hn, _, h2⟩ := h.replaceWith huv (htab u hu) heq hr.le
        rw [e1]
        simp only
        obtain ⟨g', e, a, b, c, d⟩ := ih g1 table h1 (fun w hw => by rw [ho]; exact hvs w (List.mem_cons_of_mem _ hw)) (fun w hw => by rw [ho]; exact htab w hw) hp.2
          (fun u hu w hw => hlt u hu w (List.mem_cons_of_mem _ hw))
        exact ⟨g', e, a, b.trans ho, c.trans hn, fun k x => (d k x).trans (h2 k x)⟩

theorem Good.eliminateDuplicates {I : Interp V} {g : Graph} {r : Nat → ℚ} {ρ : Nat → V} (h : Good I g r ρ) (hp : g.ops.Pairwise (fun a b => r a < r b)) :
    ∃ g', g.eliminateDuplicates = .ok g' ∧ Good I g' r ρ ∧ g'.ops.Sublist g.ops ∧ ∀ k x, Outs g' ρ k x ↔ Outs g ρ k x := by
  obtain ⟨g1, e, h1, ho, _, h2⟩ := lvnLoop_good g.ops g [] h (fun _ h => h) (by simp) hp (by simp)
  unfold Graph.eliminateDuplicates
  rw [e]
  obtain ⟨a, b, c, _, _⟩ := h1.removeUnused
  exact ⟨_, rfl, a, ho ▸ c, fun k x => (b k x).trans (h2 k x)⟩

/-! ### No duplicates remain -/

theorem not_mem_replaceArg {v w : Nat} (hvw : v ≠ w) (n : Node) : v ∉ (replaceArg v w n).args := by
  intro h
  rcases mem_replaceArg h with ⟨h, _⟩ | ⟨_, h⟩ | ⟨h1, h2⟩
  · exact hvw h
  · exact h rfl
  · exact h2 h1

/-- State of the value table: entries are pairwise different operations, and a value that was looked up without being entered is no longer used. -/
theorem lvnLoop_unique (r : Nat → ℚ) (vs : List Nat) : ∀ (g : Graph) (table done : List Nat) (g' : Graph), lvnLoop g table vs = .ok g' → Ranked g r →
    (∀ u ∈ g.ops, (g.node u).op ≠ .phi) → (∀ v ∈ vs, v ∈ g.ops) → (∀ u ∈ table, u ∈ g.ops) → (∀ u ∈ done, u ∈ g.ops) →
    vs.Pairwise (fun a b => r a < r b) → (∀ u ∈ done, ∀ v ∈ vs, r u < r v) → (∀ u ∈ table, u ∈ done) →
    (∀ a ∈ table, ∀ b ∈ table, g.node a = g.node b → a = b) → (∀ u ∈ done, u ∉ table → ∀ w ∈ g.ops, u ∉ (g.node w).args) →
    ∃ table' : List Nat, (∀ a ∈ table', ∀ b ∈ table', g'.node a = g'.node b → a = b) ∧
      (∀ u, u ∈ done ∨ u ∈ vs → u ∉ table' → ∀ w ∈ g'.ops, u ∉ (g'.node w).args) ∧ g'.ops = g.ops ∧ ∀ u, (g'.node u).op = (g.node u).op := by
  induction vs with
  | nil =>
    intro g table done g' he _ _ _ _ _ _ _ _ h1 h2
    rw [lvnLoop] at he
    cases he
    exact ⟨table, h1, fun u hu => by
      rcases hu with hu | hu
      · exact h2 u hu
      · simp at hu, rfl, fun _ => rfl⟩
  | cons v vs ih =>
    intro g table done g' he hr hphi hvs htab hdone hp hlt hsub h1 h2
    rw [List.pairwise_cons] at hp
    have hv := hvs v List.mem_cons_self
    rw [lvnLoop] at he
    cases hf : table.find? fun u => g.node u == g.node v with
    | none =>
      rw [hf] at he
      simp only at he
      obtain ⟨t', a, b, c, d⟩ := ih g (v :: table) (v :: done) g' he hr hphi (fun u hu => hvs u (List.mem_cons_of_mem _ hu)) (by
        intro u hu
        rcases List.mem_cons.mp hu with rfl | hu
        · exact hv
        · exact htab u hu) (by
        intro u hu
        rcases List.mem_cons.mp hu with rfl | hu
        · exact hv
        · exact hdone u hu) hp.2 (by
        intro u hu w hw
        rcases List.mem_cons.mp hu with rfl | hu
        · exact hp.1 w hw
        · exact hlt u hu w (List.mem_cons_of_mem _ hw)) (by
        intro u hu
        rcases List.mem_cons.mp hu with rfl | hu
        · exact List.mem_cons_self
        · exact List.mem_cons_of_mem _ (hsub u hu)) (by
        rw [List.find?_eq_none] at hf
        intro a ha b hb hab
        rcases List.mem_cons.mp ha with ha' | ha'
        · rcases List.mem_cons.mp hb with hb' | hb'
          · rw [ha', hb']
          · rw [ha'] at hab
            exact absurd (by simp [hab]) (hf b hb')
        · rcases List.mem_cons.mp hb with hb' | hb'
          · rw [hb'] at hab
            exact absurd (by simp [hab]) (hf a ha')
          · exact h1 a ha' b hb' hab) (by
        intro u hu hn
        rcases List.mem_cons.mp hu with rfl | hu
        · exact absurd List.mem_cons_self hn
        · exact h2 u hu fun h => hn (List.mem_cons_of_mem _ h))
      refine ⟨t', a, fun u hu => b u ?_, c, d⟩
      rcases hu with hu | hu
      · exact Or.inl (List.mem_cons_of_mem _ hu)
      · rcases List.mem_cons.mp hu with rfl | hu
        · exact Or.inl List.mem_cons_self
        · exact Or.inr hu
    | some u =>
      have hu := List.mem_of_find?_eq_some hf
      have hr1 := hlt u (hsub u hu) v List.mem_cons_self
      have huv : v ≠ u := by rintro rfl; exact lt_irrefl _ hr1
      rw [hf] at he
      simp only at he
      have hc : g.consumedByPhi v = false := by
        unfold Graph.consumedByPhi
        rw [List.any_eq_false]
        intro w hw
        simp [hphi w hw]
      have hvt : v ∉ table := fun h => lt_irrefl _ (hlt v (hsub v h) v List.mem_cons_self)
      rw [hc] at he
      unfold Graph.replaceWith at he
      rw [if_neg huv] at he
      simp only [Bool.false_eq_true, if_false] at he
      have htn : ∀ w ∈ table, replaceArg v u (g.node w) = g.node w := by
        intro w hw
        unfold replaceArg
        apply if_neg
        intro hvw
        exact lt_irrefl _ ((hr w (htab w hw) v hvw).trans (hlt w (hsub w hw) v List.mem_cons_self))
      obtain ⟨t', a, b, c, d⟩ := ih { g with node := fun i => replaceArg v u (g.node i) } table (v :: done) g' he (by
        intro w hw a ha
        rcases mem_replaceArg ha with ⟨rfl, hvw⟩ | ⟨ha, _⟩ | ⟨ha, _⟩
        · exact hr1.trans (hr w hw v hvw)
        · exact hr w hw a ha
        · exact hr w hw a ha) (by
        intro w hw
        show (replaceArg v u (g.node w)).op ≠ _
        rw [op_replaceArg]; exact hphi w hw) (fun w hw => hvs w (List.mem_cons_of_mem _ hw)) htab (by
        intro w hw
        rcases List.mem_cons.mp hw with rfl | hw
        · exact hv
        · exact hdone w hw) hp.2 (by
        intro w hw x hx
        rcases List.mem_cons.mp hw with rfl | hw
        · exact hp.1 x hx
        · exact hlt w hw x (List.mem_cons_of_mem _ hx)) (fun w hw => List.mem_cons_of_mem _ (hsub w hw)) (by
        intro a ha b hb hab
        change replaceArg v u (g.node a) = replaceArg v u (g.node b) at hab
        rw [htn a ha, htn b hb] at hab
        exact h1 a ha b hb hab) (by
        intro x hx hn w hw hxw
        change x ∈ (replaceArg v u (g.node w)).args at hxw
        rcases List.mem_cons.mp hx with rfl | hx
        · exact not_mem_replaceArg huv _ hxw
        · rcases mem_replaceArg hxw with ⟨rfl, _⟩ | ⟨ha, _⟩ | ⟨ha, _⟩
          · exact hn hu
          · exact h2 x hx hn w hw ha
          · exact h2 x hx hn w hw ha)
      refine ⟨t', a, fun w hw => b w ?_, c, fun w => (d w).trans (op_replaceArg _ _ _)⟩
      rcases hw with hw | hw
      · exact Or.inl (List.mem_cons_of_mem _ hw)
      · rcases List.mem_cons.mp hw with rfl | hw
        · exact Or.inl List.mem_cons_self
        · exact Or.inr hw

theorem eliminateDuplicates_unique {g g' : Graph} {r : Nat → ℚ} (hw : g.ops.Nodup) (hr : Ranked g r) (hp : g.ops.Pairwise (fun a b => r a < r b))
    (hphi : ∀ u ∈ g.ops, (g.node u).op ≠ .phi) (he : g.eliminateDuplicates = .ok g') :
    ∀ a ∈ g'.ops, ∀ b ∈ g'.ops, g'.node a = g'.node b → (g'.node a).op.isSink = false → a = b := by
  unfold Graph.eliminateDuplicates at he
  cases hl : lvnLoop g [] g.ops with
  | error e => rw [hl] at he; cases he
  | ok g1 =>
    rw [hl] at he
    simp only [Except.ok.injEq] at he
    subst he
    obtain ⟨t, h1, h2, h3, h4⟩ := lvnLoop_unique r g.ops g [] [] g1 hl hr hphi (fun _ h => h) (by simp) (by simp) hp (by simp) (by simp) (by simp) (by simp)
    have S := reverseRemove_spec g1 g1.ops (by rw [h3]; exact hw)
    have hnode : ∀ u ∈ g1.removeUnused.ops, g1.removeUnused.node u = g1.node u := fun u hu => S.node u (Or.inr hu)
    have hin : ∀ a ∈ g1.removeUnused.ops, (g1.node a).op.isSink = false → a ∈ t := by
      intro a ha hs
      by_contra hc
      have ha1 : a ∈ g1.ops := S.sub.subset ha
      refine S.dead a ha1 ?_ ha
      unfold Graph.isUnused
      rw [hs]
      simp only [Bool.not_false, Bool.and_true, List.all_eq_true]
      intro w hw'
      have := h2 a (Or.inr (h3 ▸ ha1)) hc w hw'
      simpa using this
    intro a ha b hb hab hs
    rw [hnode a ha, hnode b hb] at hab
    rw [hnode a ha] at hs
    exact h1 a (hin a ha hs) b (hin b hb (by rw [← hab]; exact hs)) hab

/-- In dependency order one sweep from the back leaves no unused operation. -/
theorem reverseRemove_live {g : Graph} {r : Nat → ℚ} (hr : Ranked g r) (vs : List Nat) : ∀ pre, g.ops = pre ++ vs → g.ops.Nodup →
    g.ops.Pairwise (fun a b => r a < r b) → ∀ v ∈ (reverseRemove g vs).2, (g.node v).op.isSink = true ∨ ∃ w ∈ (reverseRemove g vs).2, v ∈ (g.node w).args := by
  induction vs with
  | nil => intro pre _ _ _ v hv; simp [reverseRemove] at hv
  | cons x vs ih =>
    intro pre he hnd hp v hv
    have hnd' : vs.Nodup := by
      rw [he, List.nodup_append, List.nodup_cons] at hnd
      exact hnd.2.1.2
    have hxvs : x ∉ vs := by
      rw [he, List.nodup_append, List.nodup_cons] at hnd
      exact hnd.2.1.1
    have ih := ih (pre ++ [x]) (by simpa using he) hnd hp
    have S := reverseRemove_spec g vs hnd'
    rw [reverseRemove] at hv ⊢
    by_cases hu : (reverseRemove g vs).1.isUnused x = true
    · simp only [hu, if_true] at hv ⊢
      exact ih v hv
    · simp only [hu] at hv ⊢
      rcases List.mem_cons.mp hv with rfl | hv
      · unfold Graph.isUnused at hu
        by_cases hs : (g.node v).op.isSink = true
        · exact Or.inl hs
        · right
          rw [S.op, Bool.and_eq_true, not_and] at hu
          have hall : ¬ ((reverseRemove g vs).1.ops.all fun u => !((reverseRemove g vs).1.node u).args.contains v) = true := by
            intro h
            exact hu h (by simpa using hs)
          rw [List.all_eq_true] at hall
          simp only [not_forall] at hall
          obtain ⟨w, hw, hvw⟩ := hall
          have hvw' : v ∈ ((reverseRemove g vs).1.node w).args := by simpa using hvw
          rw [S.ops] at hw
          have hvw2 : v ∈ (g.node w).args := by
            rcases S.args w with h | h
            · rw [← h]; exact hvw'
            · rw [h] at hvw'; simp at hvw'
          have hrv := hr w hw v hvw2
          have hwvs : w ∈ vs := by
            rw [he] at hw hp
            rw [List.pairwise_append] at hp
            rcases List.mem_append.mp hw with h | h
            · exact absurd (hp.2.2 w h v List.mem_cons_self) (not_lt.mpr hrv.le)
            · rcases List.mem_cons.mp h with rfl | h
              · exact absurd hrv (lt_irrefl _)
              · exact h
          have hk : w ∈ (reverseRemove g vs).2 := by
            by_contra hk
            have := (S.gone w hwvs hk).1
            rw [this] at hvw'
            simp at hvw'
          exact ⟨w, List.mem_cons_of_mem _ hk, hvw2⟩
      · rcases ih v hv with h | ⟨w, hw, h⟩
        · exact Or.inl h
        · exact Or.inr ⟨w, List.mem_cons_of_mem _ hw, h⟩

/-! ## Copies -/

/-- Dropping a value that nothing uses. -/
theorem Good.drop {I : Interp V} {g : Graph} {r : Nat → ℚ} {ρ : Nat → V} (h : Good I g r ρ) {l : List Nat} (hl : l.Sublist g.ops)
    (hc : ∀ w ∈ l, ∀ a ∈ (g.node w).args, a ∈ l) (hs : ∀ w ∈ g.ops, w ∉ l → ∀ k, (g.node w).op ≠ .save k) (f : Nat → Node) (hf : ∀ w ∈ l, f w = g.node w) :
    Good I { g with ops := l, node := f } r ρ ∧ ∀ k x, Outs { g with ops := l, node := f } ρ k x ↔ Outs g ρ k x := by
  refine ⟨⟨WF.of (h.wf.nodup.sublist hl) (fun v hv => h.wf.lt v (hl.subset hv)) (fun v hv a ha => hc v hv a (by rw [← hf v hv]; exact ha))
    (fun v hv => by show NodeWF (f v); rw [hf v hv]; exact h.wf.node (hl.subset hv)),
    fun v hv a ha => h.ranked v (hl.subset hv) a (by rw [← hf v hv]; exact ha), fun v hv => ?_⟩, ?_⟩
  · show ρ v = I.f (f v).op ((f v).args.map ρ)
    rw [hf v hv]; exact h.sat v (hl.subset hv)
  · intro k x
    constructor
    · rintro ⟨v, hv, h1, h2⟩
      change (f v).op = _ at h1
      change (f v).args.map ρ = _ at h2
      rw [hf v hv] at h1 h2
      exact ⟨v, hl.subset hv, h1, h2⟩
    · rintro ⟨v, hv, h1, h2⟩
      have hvl : v ∈ l := by
        by_contra hn
        exact hs v hv hn k h1
      exact ⟨v, hvl, by show (f v).op = _; rw [hf v hvl]; exact h1, by show (f v).args.map ρ = _; rw [hf v hvl]; exact h2⟩

theorem copiesLoop_good {I : Interp V} {r : Nat → ℚ} {ρ : Nat → V} (vs : List Nat) : ∀ (g : Graph) (pre : List Nat),
    Good I { g with ops := pre ++ vs } r ρ → ∃ g' kept, copiesLoop g vs = .ok (g', kept) ∧ kept.Sublist vs ∧ Good I { g' with ops := pre ++ kept } r ρ ∧
      ∀ k x, Outs { g' with ops := pre ++ kept } ρ k x ↔ Outs { g with ops := pre ++ vs } ρ k x := by
  induction vs with
  | nil => intro g pre h; exact ⟨g, [], rfl, List.Sublist.refl _, h, fun _ _ => Iff.rfl⟩
  | cons v vs ih =>
    intro g pre h
    have hv : v ∈ pre ++ v :: vs := by simp
    have keep : (∀ u us, g.node v ≠ ⟨.copy, u :: us⟩) → g.node v ≠ ⟨.copy, []⟩ → ∃ g' kept, copiesLoop g (v :: vs) = .ok (g', kept) ∧ kept.Sublist (v :: vs) ∧
        Good I { g' with ops := pre ++ kept } r ρ ∧ ∀ k x, Outs { g' with ops := pre ++ kept } ρ k x ↔ Outs { g with ops := pre ++ v :: vs } ρ k x := by
      intro h1 h2
      obtain ⟨g', kept, e, hs, hg, ho⟩ := ih g (pre ++ [v]) (by simpa using h)
      refine ⟨g', v :: kept, ?_, hs.cons_cons v, by simpa using hg, by simpa using ho⟩
      rw [copiesLoop]
      split
      · rename_i u us hn; exact absurd hn (h1 u us)
      · rename_i hn; exact absurd hn h2
      · rw [e]
    rcases hn : g.node v with ⟨op, args⟩
    cases op
    case copy =>
      have hlen := h.wf.unary v hv (Or.inr (Or.inl (by show (g.node v).op = _; rw [hn])))
      change (g.node v).args.length = 1 at hlen
      rw [hn] at hlen
      match args, hlen with
      | [u], _ =>
        have hu : u ∈ pre ++ v :: vs := h.wf.closed v hv u (by show u ∈ (g.node v).args; rw [hn]; simp)
        have hr : r u < r v := h.ranked v hv u (by show u ∈ (g.node v).args; rw [hn]; simp)
        have hvu : v ≠ u := by rintro rfl; exact lt_irrefl _ hr
        have he : ρ v = ρ u := by
          have := h.sat v hv
          change ρ v = I.f (g.node v).op ((g.node v).args.map ρ) at this
          rw [hn] at this
          rw [this]; exact I.copy _
        obtain ⟨g1, e1, hg1, hops1, hnext1, hnode1, ho1⟩ := h.replaceWith hvu hu he hr.le
        have e2 : g.replaceWith v u = .ok { g with node := fun i => replaceArg v u (g.node i) } := by
          unfold Graph.replaceWith; rw [if_neg hvu]
        have e1' : g1 = { g with node := fun i => replaceArg v u (g.node i), ops := pre ++ v :: vs } := by
          unfold Graph.replaceWith at e1
          rw [if_neg hvu] at e1
          cases e1; rfl
        have hsub : (pre ++ vs).Sublist g1.ops := by rw [hops1]; exact List.Sublist.append (List.Sublist.refl pre) (List.sublist_cons_self v vs)
        have hnd := h.wf.nodup
        change (pre ++ v :: vs).Nodup at hnd
        have hvn : v ∉ pre ++ vs := by
          rw [List.nodup_append, List.nodup_cons] at hnd
          intro hm
          rcases List.mem_append.mp hm with hm | hm
          · exact hnd.2.2 v hm v List.mem_cons_self rfl
          · exact hnd.2.1.1 hm
        obtain ⟨hg2, ho2⟩ := hg1.drop (l := pre ++ vs) hsub (by
          intro w hw a ha
          have ha' := hg1.wf.closed w (hsub.subset hw) a ha
          rw [hops1] at ha'
          have hav : a ≠ v := by
            rintro rfl
            rw [hnode1] at ha
            exact not_mem_replaceArg hvu _ ha
          simp only [List.mem_append, List.mem_cons] at ha' ⊢
          tauto) (by
          intro w hw hwl k hk
          rw [hops1] at hw
          have hwv : w = v := by
            simp only [List.mem_append, List.mem_cons] at hw hwl
            tauto
          subst hwv
          rw [hnode1, op_replaceArg] at hk
          change (g.node w).op = _ at hk
          rw [hn] at hk
          cases hk) (fun i => if i = v then ⟨(g1.node v).op, []⟩ else g1.node i) (by
          intro w hw
          exact if_neg (by rintro rfl; exact hvn hw))
        obtain ⟨g', kept, e, hs, hg, ho⟩ := ih (({ g with node := fun i => replaceArg v u (g.node i) } : Graph).remove v) pre (by
          rw [e1'] at hg2; exact hg2)
        refine ⟨g', kept, ?_, hs.trans (List.sublist_cons_self _ _), hg, fun k x => (ho k x).trans ?_⟩
        · rw [copiesLoop, hn]
          simp only [e2]
          exact e
        · rw [← ho1 k x, ← ho2 k x, e1']; exact Iff.rfl
    all_goals exact keep (by intro u us hc; rw [hn] at hc; cases hc) (by intro hc; rw [hn] at hc; cases hc)

theorem Good.eliminateCopies {I : Interp V} {g : Graph} {r : Nat → ℚ} {ρ : Nat → V} (h : Good I g r ρ) :
    ∃ g', g.eliminateCopies = .ok g' ∧ Good I g' r ρ ∧ g'.ops.Sublist g.ops ∧ ∀ k x, Outs g' ρ k x ↔ Outs g ρ k x := by
  obtain ⟨g', kept, e, hs, hg, ho⟩ := copiesLoop_good (I := I) (r := r) (ρ := ρ) g.ops g [] h
  unfold Graph.eliminateCopies
  rw [e]
  exact ⟨_, rfl, hg, hs, ho⟩

/-! ## Topological sort -/

theorem mem_queueInsert {v w : Nat} {q : List Nat} : w ∈ queueInsert v q ↔ w = v ∨ w ∈ q := by
  unfold queueInsert; rw [List.mem_orderedInsert]

theorem mem_foldl_queue {w : Nat} (l : List Nat) (q : List Nat) : w ∈ l.foldl (fun q c => queueInsert c q) q ↔ w ∈ l ∨ w ∈ q := by
  induction l generalizing q with
  | nil => simp
  | cons a l ih => rw [List.foldl_cons, ih, mem_queueInsert, List.mem_cons]; tauto

theorem length_foldl_queue (l : List Nat) (q : List Nat) : (l.foldl (fun q c => queueInsert c q) q).length = l.length + q.length := by
  induction l generalizing q with
  | nil => simp
  | cons a l ih =>
    rw [List.foldl_cons, ih]
    unfold queueInsert
    rw [List.orderedInsert_length, List.length_cons]; omega

/-- Reverse of a list in dependency order. -/
def RevInOrder (g : Graph) : List Nat → Prop
  | [] => True
  | v :: out => (∀ a ∈ (g.node v).args, a ∈ out) ∧ RevInOrder g out

theorem topoLoop_spec (g : Graph) (hnd : g.ops.Nodup) : ∀ (fuel : Nat) (queue out : List Nat),
    queue.length + (g.ops.length - out.length) * g.ops.length ≤ fuel → out.Nodup → (∀ v ∈ out, v ∈ g.ops) → RevInOrder g out →
    (∀ v ∈ queue, v ∈ g.ops ∧ ∀ a ∈ (g.node v).args, a ∈ out) → (∀ v ∈ g.ops, (∀ a ∈ (g.node v).args, a ∈ out) → v ∈ out ∨ v ∈ queue) →
    ∃ out', topoLoop g fuel queue out = .ok out' ∧ out'.Nodup ∧ (∀ v ∈ out', v ∈ g.ops) ∧ RevInOrder g out' ∧
      ∀ v ∈ g.ops, (∀ a ∈ (g.node v).args, a ∈ out') → v ∈ out' := by
  intro fuel
  induction fuel with
  | zero =>
    intro queue out hf h1 h2 h3 h4 h5
    match queue with
    | [] => exact ⟨out, rfl, h1, h2, h3, fun v hv ha => by simpa using h5 v hv ha⟩
    | _ :: _ => rw [List.length_cons] at hf; omega
  | succ fuel ih =>
    intro queue out hf h1 h2 h3 h4 h5
    match queue with
    | [] => exact ⟨out, rfl, h1, h2, h3, fun v hv ha => by simpa using h5 v hv ha⟩
    | top :: queue =>
      rw [topoLoop]
      rw [List.length_cons] at hf
      by_cases hc : top ∈ out
      · rw [if_pos (by simpa using hc)]
        refine ih queue out (by omega) h1 h2 h3 (fun v hv => h4 v (List.mem_cons_of_mem _ hv)) ?_
        intro v hv ha
        rcases h5 v hv ha with h | h
        · exact Or.inl h
        · rcases List.mem_cons.mp h with rfl | h
          · exact Or.inl hc
          · exact Or.inr h
      · rw [if_neg (by simpa using hc)]
        simp only
        have htop := h4 top List.mem_cons_self
        have hnd' : (top :: out).Nodup := List.nodup_cons.mpr ⟨hc, h1⟩
        have hsub' : ∀ v ∈ top :: out, v ∈ g.ops := by
          intro v hv
          rcases List.mem_cons.mp hv with rfl | hv
          · exact htop.1
          · exact h2 v hv
        have hlen : (top :: out).length ≤ g.ops.length := (List.subperm_of_subset hnd' hsub').length_le
        rw [List.length_cons] at hlen
        have hready : ((g.consumersOf top).filter fun c => (g.node c).args.all fun a => (top :: out).contains a).length ≤ g.ops.length :=
          (List.length_filter_le _ _).trans (List.length_filter_le _ _)
        refine ih _ (top :: out) ?_ hnd' hsub' ⟨htop.2, h3⟩ ?_ ?_
        · rw [length_foldl_queue, List.length_cons]
          have e : g.ops.length - out.length = (g.ops.length - (out.length + 1)) + 1 := by omega
          rw [e, Nat.add_mul, Nat.one_mul] at hf
          omega
        · intro v hv
          rw [mem_foldl_queue] at hv
          rcases hv with hv | hv
          · rw [List.mem_filter] at hv
            unfold Graph.consumersOf at hv
            rw [List.mem_filter] at hv
            refine ⟨hv.1.1, fun a ha => ?_⟩
            have := List.all_eq_true.mp hv.2 a ha
            simpa using this
          · have := h4 v (List.mem_cons_of_mem _ hv)
            exact ⟨this.1, fun a ha => List.mem_cons_of_mem _ (this.2 a ha)⟩
        · intro v hv ha
          by_cases hu : top ∈ (g.node v).args
          · refine Or.inr ((mem_foldl_queue _ _).mpr (Or.inl ?_))
            rw [List.mem_filter]
            refine ⟨?_, ?_⟩
            · unfold Graph.consumersOf
              rw [List.mem_filter]
              exact ⟨hv, by simpa using hu⟩
            · rw [List.all_eq_true]
              intro a ha'
              simpa using ha a ha'
          · have ha' : ∀ a ∈ (g.node v).args, a ∈ out := by
              intro a h
              rcases List.mem_cons.mp (ha a h) with rfl | h'
              · exact absurd h hu
              · exact h'
            rcases h5 v hv ha' with h | h
            · exact Or.inl (List.mem_cons_of_mem _ h)
            · rcases List.mem_cons.mp h with rfl | h
              · exact Or.inl List.mem_cons_self
              · exact Or.inr ((mem_foldl_queue _ _).mpr (Or.inr h))

theorem revInOrder_split {g : Graph} {out : List Nat} (h : RevInOrder g out) : ∀ l v l', out.reverse = l ++ v :: l' → ∀ a ∈ (g.node v).args, a ∈ l := by
  induction out with
  | nil => intro l v l' he; simp at he
  | cons x out ih =>
    intro l v l' he a ha
    rw [List.reverse_cons] at he
    rcases List.eq_nil_or_concat l' with rfl | ⟨l'', y, rfl⟩
    · have := List.append_inj' he rfl
      simp only [List.cons.injEq, and_true] at this
      rw [← this.1, List.mem_reverse]
      rw [← this.2] at ha
      exact h.1 a ha
    · have he' : out.reverse ++ [x] = (l ++ v :: l'') ++ [y] := by simpa using he
      have := List.append_inj' he' rfl
      exact ih h.2 l v l'' this.1 a ha

/-- The loop always ends, with a list that is closed under dependencies. -/
theorem topo_run (g : Graph) (hnd : g.ops.Nodup) (hc : ∀ v ∈ g.ops, ∀ a ∈ (g.node v).args, a ∈ g.ops) :
    ∃ out, (g.topologicalSort = if out.length = g.ops.length then .ok { g with ops := out.reverse } else .error .assertion) ∧ out.Nodup ∧
      (∀ v ∈ out, v ∈ g.ops) ∧ RevInOrder g out ∧ ∀ v ∈ g.ops, (∀ a ∈ (g.node v).args, a ∈ out) → v ∈ out := by
  have hinit : ∀ v, v ∈ (g.ops.filter fun v => (g.node v).args.all fun a => !g.ops.contains a).foldl (fun q c => queueInsert c q) [] ↔
      v ∈ g.ops ∧ (g.node v).args = [] := by
    intro v
    rw [mem_foldl_queue, List.mem_filter]
    simp only [List.not_mem_nil, or_false]
    refine and_congr_right fun hv => ?_
    rw [List.all_eq_true]
    constructor
    · intro h
      rw [List.eq_nil_iff_forall_not_mem]
      intro a ha
      have := h a ha
      simp [hc v hv a ha] at this
    · intro h; rw [h]; simp
  obtain ⟨out, e, h1, h2, h3, h4⟩ := topoLoop_spec g hnd (g.ops.length * g.ops.length + g.ops.length)
    ((g.ops.filter fun v => (g.node v).args.all fun a => !g.ops.contains a).foldl (fun q c => queueInsert c q) []) [] (by
      rw [length_foldl_queue]
      have := List.length_filter_le (fun v => (g.node v).args.all fun a => !g.ops.contains a) g.ops
      simp only [List.length_nil, Nat.sub_zero]
      omega) List.nodup_nil (by simp) trivial (by
      intro v hv
      rw [hinit] at hv
      exact ⟨hv.1, by rw [hv.2]; simp⟩) (by
      intro v hv ha
      right
      rw [hinit]
      refine ⟨hv, ?_⟩
      rw [List.eq_nil_iff_forall_not_mem]
      intro a ha'
      simpa using ha a ha')
  refine ⟨out, ?_, h1, h2, h3, h4⟩
  unfold Graph.topologicalSort
  simp only [e]

theorem topologicalSort_spec {g : Graph} {r : Nat → ℚ} (hnd : g.ops.Nodup) (hc : ∀ v ∈ g.ops, ∀ a ∈ (g.node v).args, a ∈ g.ops) (hr : Ranked g r) :
    ∃ l, g.topologicalSort = .ok { g with ops := l } ∧ l.Perm g.ops ∧ InOrder { g with ops := l } := by
  obtain ⟨out, e, h1, h2, h3, h4⟩ := topo_run g hnd hc
  have hall : ∀ v ∈ g.ops, v ∈ out := by
    by_contra hcon
    simp only [not_forall] at hcon
    obtain ⟨v, hv, hvo⟩ := hcon
    -- a missing value of least rank
    have hmin : ∀ l : List Nat, l ≠ [] → ∃ m ∈ l, ∀ x ∈ l, r m ≤ r x := by
      intro l
      induction l with
      | nil => intro h; exact absurd rfl h
      | cons x l ih =>
        intro _
        by_cases hl : l = []
        · subst hl; exact ⟨x, by simp, by simp⟩
        · obtain ⟨m, hm, hmin⟩ := ih hl
          by_cases hx : r x ≤ r m
          · exact ⟨x, by simp, fun y hy => by
              rcases List.mem_cons.mp hy with rfl | hy
              · exact le_refl _
              · exact hx.trans (hmin y hy)⟩
          · exact ⟨m, List.mem_cons_of_mem _ hm, fun y hy => by
              rcases List.mem_cons.mp hy with rfl | hy
              · exact (not_le.mp hx).le
              · exact hmin y hy⟩
    obtain ⟨m, hm, hle⟩ := hmin (g.ops.filter fun w => w ∉ out) (by
      intro hn
      have : v ∈ g.ops.filter fun w => w ∉ out := by rw [List.mem_filter]; exact ⟨hv, by simpa using hvo⟩
      rw [hn] at this; simp at this)
    rw [List.mem_filter] at hm
    have hmo : m ∉ out := by simpa using hm.2
    apply hmo
    apply h4 m hm.1
    intro a ha
    by_contra hao
    have := hle a (by rw [List.mem_filter]; exact ⟨hc m hm.1 a ha, by simpa using hao⟩)
    exact absurd (hr m hm.1 a ha) (not_lt.mpr this)
  have hp : out.Perm g.ops := (List.perm_ext_iff_of_nodup h1 hnd).mpr fun v => ⟨h2 v, hall v⟩
  refine ⟨out.reverse, ?_, (List.reverse_perm _).trans hp, ?_⟩
  · rw [e, if_pos hp.length_eq]
  · intro l v l' he a ha
    exact revInOrder_split h3 l v l' he a ha

end Wf.Gen
