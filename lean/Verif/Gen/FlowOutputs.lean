import Verif.Gen.FlowCopies

/-!
# The converted program writes the outputs (used in proofs)
-/

namespace Wf.Gen

open Conv

variable {V : Type} [Arith V] {g : Graph} {usage : Nat → Usage} {ternaries : Bool} {s : Conv} {W : Reg}

omit [Arith V] in
theorem opsOk_phi {P : Nat → Prop} {v : Nat} (hphi : (s.node v).op = .phi) : ∀ (l : List Nat) (A : Nat → Prop), OpsOk s P A l → v ∈ l → P v
  | [], _, _, hv => by simp at hv
  | u :: us, A, h, hv => by
    obtain ⟨h1, h2⟩ := h
    rcases List.mem_cons.1 hv with rfl | hv
    · rw [if_pos hphi] at h1; exact h1
    · exact opsOk_phi hphi us _ h2 hv

/-- A phi function is right after a branch. -/
theorem scoped_phi {Φ : Nat → Nat → Nat → Nat → Prop} {v : Nat} (hphi : (s.node v).op = .phi) : ∀ (R : Reg) (A P : Nat → Prop), Lay s.anc s.desc R →
    Scoped s Φ A P R → ∀ b ∈ R.blocks, v ∈ s.ops b → (b = R.entry ∧ P v) ∨ ∃ c l r, Φ c l r v ∧ s.anc b = [l, r]
  | .last b, A, P, _, h, d, hd, hv => by
    simp only [Reg.blocks, List.mem_singleton] at hd
    subst hd
    exact .inl ⟨rfl, opsOk_phi hphi _ _ h hv⟩
  | .ite b l r rest, A, P, hl, h, d, hd, hv => by
    simp only [Lay] at hl
    simp only [Scoped] at h
    obtain ⟨l1, l2, l3, l4, l5, l6, l7, l8, l9⟩ := hl
    obtain ⟨ho, c, hj, sl, sr, srest⟩ := h
    simp only [Reg.blocks, List.mem_cons, List.mem_append] at hd
    rcases hd with rfl | (hd | hd) | hd
    · exact .inl ⟨rfl, opsOk_phi hphi _ _ ho hv⟩
    · rcases scoped_phi hphi l _ _ l7 sl d hd hv with ⟨_, hf⟩ | h
      · exact hf.elim
      · exact .inr h
    · rcases scoped_phi hphi r _ _ l8 sr d hd hv with ⟨_, hf⟩ | h
      · exact hf.elim
      · exact .inr h
    · rcases scoped_phi hphi rest _ _ l9 srest d hd hv with ⟨e, hf⟩ | h
      · exact .inr ⟨c, l.exit, r.exit, hf, by rw [e]; exact l6⟩
      · exact .inr h
  | .opt b k l rest, A, P, hl, h, d, hd, hv => by
    simp only [Lay] at hl
    simp only [Scoped] at h
    obtain ⟨l1, l2, l4, l6, l7, l9⟩ := hl
    obtain ⟨ho, c, hj, _, sl, srest⟩ := h
    simp only [Reg.blocks, List.mem_cons, List.mem_append] at hd
    rcases hd with rfl | hd | hd
    · exact .inl ⟨rfl, opsOk_phi hphi _ _ ho hv⟩
    · rcases scoped_phi hphi l _ _ l7 sl d hd hv with ⟨_, hf⟩ | h
      · exact hf.elim
      · exact .inr h
    · rcases scoped_phi hphi rest _ _ l9 srest d hd hv with ⟨_, hf⟩ | h
      · exact hf.elim
      · exact .inr h

theorem Inv.to_placed (hg : Input g) (h : Inv g usage ternaries s W) (hall : ∀ v ∈ g.ops, s.visited v = true) : Placed s := by
  have hlive : ∀ b, ∀ v ∈ s.ops b, v ∈ s.live := fun b v hv => h.live v (by rw [(h.ops b v).1 hv]; simp)
  refine ⟨hlive, fun b v hv => (h.ops b v).1 hv, h.nodup, ?_, ?_, ?_⟩
  · intro b v hv ho
    by_cases hm : v ∈ g.ops
    · rcases h.placed v hm (hall v hm) with ⟨e, _⟩ | ⟨x, y, e, _⟩
      · rw [e] at ho ⊢
        have hlen := hg.wf.unary v hm (by rw [ho]; simp)
        match hn : g.node v, ho, hlen with
        | ⟨_, [x]⟩, ho, _ => exact ⟨x, by simp only at ho; rw [ho]⟩
      · rw [e] at ho; cases ho
    · rcases (h.made v (hlive b v hv) hm).2 with ⟨c, hc, e, _⟩ | ⟨c, hc, e, _⟩ | ⟨k, e⟩ | ⟨u, k, e, hu, eu⟩
      · exact ⟨c, e⟩
      all_goals rw [e] at ho; cases ho
  · intro b v hv ho
    by_cases hm : v ∈ g.ops
    · rcases h.placed v hm (hall v hm) with ⟨e, _⟩ | ⟨x, y, e, _⟩
      · rw [e] at ho
        exact absurd ho (hg.conv.flat v hm).2.1
      · rw [e] at ho; cases ho
    · rcases (h.made v (hlive b v hv) hm).2 with ⟨c, hc, e, _⟩ | ⟨c, hc, e, _⟩ | ⟨k, e⟩ | ⟨u, k, e, hu, eu⟩
      · rw [e] at ho; cases ho
      · exact ⟨c, e⟩
      · rw [e] at ho; cases ho
      · exact ⟨u, e⟩
  · intro b v hv ho
    rcases scoped_phi ho W _ _ h.lay h.scope b (h.parent v b ((h.ops b v).1 hv)) hv with ⟨_, hf⟩ | ⟨c, l, r, hp, ha⟩
    · exact hf.elim
    · obtain ⟨_, x, y, a, b', e, _, _, _, hx, hy⟩ := hp
      rw [e, ha]
      simp [(h.ops _ _).1 hx, (h.ops _ _).1 hy]

/-- Which of the blocks with outputs are run. -/
theorem exits_path {I : Interp V} {truth : V → Bool} {val : Nat → V} {Φ : Nat → Nat → Nat → Nat → Prop}
    (hval : ∀ b, ∀ v ∈ s.ops b, (s.node v).op ≠ .phi → val v = I.f (s.node v).op ((s.node v).args.map val)) {b : Nat} {o : Option Nat} :
    ∀ (R : Reg) (A P : Nat → Prop), R.blocks.Nodup → Scoped s Φ A P R → (b, o) ∈ R.exits →
      (b ∈ R.path (taken truth s val) ↔ ∀ k, o = some k → truth (I.f (.outputRequired k) []) = true)
  | .last d, _, _, _, _, h => by
    simp only [Reg.exits, List.mem_singleton, Prod.mk.injEq] at h
    simp [Reg.path, h.1, h.2]
  | .ite d l r rest, A, P, hn, hs, h => by
    simp only [Scoped] at hs
    obtain ⟨_, c, _, _, _, srest⟩ := hs
    simp only [Reg.blocks, List.nodup_cons, List.nodup_append, List.mem_append, not_or] at hn
    obtain ⟨hd, ⟨_, _, _⟩, nrest, hdis⟩ := hn
    have hb := Reg.exits_mem rest h
    rw [← exits_path hval rest _ _ nrest srest h]
    simp only [Reg.path, List.mem_cons, List.mem_append]
    constructor
    · rintro (rfl | h1 | h1)
      · exact absurd hb hd.2
      · exfalso
        split at h1
        · exact hdis b (.inl ((l.path_sublist _).subset h1)) b hb rfl
        · exact hdis b (.inr ((r.path_sublist _).subset h1)) b hb rfl
      · exact h1
    · exact fun h1 => .inr (.inr h1)
  | .opt d key l rest, A, P, hn, hs, h => by
    simp only [Scoped] at hs
    obtain ⟨_, c, hj, ⟨hc, hcn⟩, _, srest⟩ := hs
    simp only [Reg.blocks, List.nodup_cons, List.nodup_append, List.mem_append, not_or] at hn
    obtain ⟨hd, nl, nrest, hdis⟩ := hn
    have htk : taken truth s val d = truth (I.f (.outputRequired key) []) := by
      rw [taken, jumpCondition_of hj, Option.getD_some, hval d c hc (by rw [hcn]; simp), hcn]
      rfl
    simp only [Reg.exits, List.mem_cons, Prod.mk.injEq] at h
    simp only [Reg.path, List.mem_cons, List.mem_append, htk]
    rcases h with ⟨rfl, rfl⟩ | h
    · have hne : l.exit ≠ d := by rintro e; exact hd.1 (e ▸ l.exit_mem)
      have hnr : l.exit ∉ rest.path (taken truth s val) := fun hm => hdis _ l.exit_mem _ ((rest.path_sublist _).subset hm) rfl
      simp only [hne, hnr, or_false, false_or, Option.some.injEq, forall_eq']
      constructor
      · intro h1
        by_contra hc
        rw [if_neg hc] at h1
        simp at h1
      · intro h1
        rw [if_pos h1]
        exact l.exit_path _
    · have hb := Reg.exits_mem rest h
      rw [← exits_path hval rest _ _ nrest srest h]
      constructor
      · rintro (rfl | h1 | h1)
        · exact absurd hb hd.2
        · exfalso
          split at h1
          · exact hdis b ((l.path_sublist _).subset h1) b hb rfl
          · simp at h1
        · exact h1
      · exact fun h1 => .inr (.inr h1)

/-- The program before the removal of copies. -/
theorem outcome_ok (hg : Input g) (h : Inv g usage ternaries s W) (hall : ∀ v ∈ g.ops, s.visited v = true) {I : Interp V} {truth : V → Bool}
    (hsel : Selects I truth) :
    Outcome I truth s s.blocks W.entry (fun u => ∃ b ∈ W.path (taken truth s (flowVal I g s)), u ∈ s.ops b)
      (fun key y => Writes I g key y ∧ (usage key = .optional → truth (I.f (.outputRequired key) []) = true)) := by
  obtain ⟨m, he, hd, hk, ha⟩ := exec_ok hg h hall hsel
  have hmem : ∀ u, u ∈ m.done ↔ ∃ b ∈ W.path (taken truth s (flowVal I g s)), u ∈ s.ops b := by
    intro u
    rw [hd, List.mem_flatMap]
  have hsave : ∀ v key, s.parent v ≠ none → (s.node v).op = .save key → v ∈ g.ops ∧ s.node v = g.node v := by
    intro v key hp hs
    by_cases hm : v ∈ g.ops
    · refine ⟨hm, ?_⟩
      rcases h.placed v hm (hall v hm) with ⟨e, _⟩ | ⟨x, y, e, _⟩
      · exact e
      · rw [e] at hs; cases hs
    · rcases (h.made v (h.live v hp) hm).2 with ⟨c, hc, e, _⟩ | ⟨c, hc, e, _⟩ | ⟨k, e⟩ | ⟨u, k, e, hu, eu⟩ <;> rw [e] at hs <;> cases hs
  have hval : ∀ b, ∀ v ∈ s.ops b, (s.node v).op ≠ .phi → flowVal I g s v = I.f (s.node v).op ((s.node v).args.map (flowVal I g s)) :=
    fun b v hv hp => flowVal_op hg h hall I (by rw [(h.ops b v).1 hv]; simp) hp
  have hargs : ∀ v ∈ g.ops, ∀ key, (g.node v).op = .save key → s.node v = g.node v → v ∈ m.done →
      (s.node v).args.map m.env = ((g.node v).args.map (run I g)).map some := by
    intro v hv key hs e hdone
    obtain ⟨b, hb, hvb⟩ := (hmem v).1 hdone
    rw [e, List.map_map]
    refine List.map_congr_left fun a hav => ?_
    have := ha b hb v hvb (by rw [e, hs]; simp) a (by rw [e]; exact hav)
    rw [Known, flowVal_mem I (hg.wf.closed v hv a hav)] at this
    exact this
  refine ⟨m, he, ?_, ?_, ?_, ?_⟩
  · rw [hd, List.nodup_flatMap]
    refine ⟨fun b _ => h.nodup b, ?_⟩
    have hpn : (W.path (taken truth s (flowVal I g s))).Nodup := h.nodupW.sublist (W.path_sublist _)
    refine hpn.imp fun {b d} hbd => ?_
    intro x hx hy
    rw [h.ops] at hx hy
    rw [hx] at hy
    cases hy
    exact hbd rfl
  · intro u hu
    obtain ⟨b, hb, hub⟩ := (hmem u).1 hu
    exact ⟨⟨b, hb, hub⟩, b, hub⟩
  · intro u hu hp a hau
    obtain ⟨b, hb, hub⟩ := (hmem u).1 hu
    rw [ha b hb u hub hp a hau]
    simp
  · intro key y
    constructor
    · rintro ⟨v, hv, hs, hav⟩
      obtain ⟨b, hb, hvb⟩ := (hmem v).1 hv
      have hp := (h.ops b v).1 hvb
      obtain ⟨hm, e⟩ := hsave v key (by rw [hp]; simp) hs
      rw [e] at hs
      rw [hargs v hm key hs e hv] at hav
      refine ⟨⟨v, hm, hs, ?_⟩, fun ho => ?_⟩
      · rw [show ([some y] : List (Option V)) = [y].map some from rfl] at hav
        exact List.map_injective_iff.2 (Option.some_injective V) hav
      · have hex := h.saves v hm key b hs hp
        rw [if_pos ho] at hex
        exact (exits_path hval W _ _ h.nodupW h.scope hex).1 hb key rfl
    · rintro ⟨⟨v, hm, hs, hav⟩, hreq⟩
      have hvp := (h.vis v hm).1 (hall v hm)
      have e : s.node v = g.node v := by
        rcases h.placed v hm (hall v hm) with ⟨e, _⟩ | ⟨x, y, e, _, _, hc⟩
        · exact e
        · rw [hs] at hc; cases hc
      cases hp : s.parent v with
      | none => exact absurd hp hvp
      | some b =>
        have hex := h.saves v hm key b hs hp
        have hb := (exits_path (truth := truth) hval W _ _ h.nodupW h.scope hex).2 (by
          intro k hk
          by_cases ho : usage key = .optional
          · rw [if_pos ho] at hk
            cases hk
            exact hreq ho
          · rw [if_neg ho] at hk
            cases hk)
        have hdone : v ∈ m.done := (hmem v).2 ⟨b, hb, (h.ops b v).2 hp⟩
        refine ⟨v, hdone, by rw [e]; exact hs, ?_⟩
        rw [hargs v hm key hs e hdone, hav]
        rfl

end Wf.Gen
