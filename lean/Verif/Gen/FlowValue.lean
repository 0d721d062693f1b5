import Verif.Gen.FlowExec

/-!
# The blocks compute the values of the input program (used in proofs)
-/

namespace Wf.Gen

open Conv

variable {V : Type} [Arith V] {g : Graph} {usage : Nat → Usage} {ternaries : Bool} {s : Conv} {W : Reg}

/-- The value of an operand of a value made by the conversion. -/
noncomputable def argVal (I : Interp V) (g : Graph) (s : Conv) (u : Nat) : V := if u ∈ g.ops then run I g u else I.f (s.node u).op []

/-- The value that every operation should have. -/
noncomputable def flowVal (I : Interp V) (g : Graph) (s : Conv) (v : Nat) : V :=
  if v ∈ g.ops then run I g v else I.f (s.node v).op ((s.node v).args.map (argVal I g s))

theorem flowVal_mem (I : Interp V) {v : Nat} (h : v ∈ g.ops) : flowVal I g s v = run I g v := by rw [flowVal, if_pos h]

theorem flowVal_op (hg : Input g) (h : Inv g usage ternaries s W) (hall : ∀ v ∈ g.ops, s.visited v = true) (I : Interp V) {v : Nat}
    (hv : s.parent v ≠ none) (hp : (s.node v).op ≠ .phi) :
    flowVal I g s v = I.f (s.node v).op ((s.node v).args.map (flowVal I g s)) := by
  by_cases hm : v ∈ g.ops
  · rw [flowVal_mem I hm]
    rcases h.placed v hm (hall v hm) with ⟨e, _⟩ | ⟨x, y, e, _⟩
    · rw [e, run_sat I hg.wf.nodup hg.order v hm]
      congr 1
      exact List.map_congr_left fun a ha => (flowVal_mem I (hg.wf.closed v hm a ha)).symm
    · rw [e] at hp
      exact absurd rfl hp
  · rw [flowVal, if_neg hm]
    congr 1
    apply List.map_congr_left
    intro a ha
    rcases (h.made v (h.live v hv) hm).2 with ⟨c, hc, e, _⟩ | ⟨c, hc, e, _⟩ | ⟨k, e⟩ | ⟨u, k, e, hu, eu⟩ <;> rw [e] at ha
    · cases List.mem_singleton.1 ha
      rw [argVal, if_pos hc, flowVal_mem I hc]
    · cases List.mem_singleton.1 ha
      rw [argVal, if_pos hc, flowVal_mem I hc]
    · cases ha
    · cases List.mem_singleton.1 ha
      rw [argVal, if_neg hu, flowVal, if_neg hu, eu]
      rfl

theorem flowVal_phi (hg : Input g) (h : Inv g usage ternaries s W) (hall : ∀ v ∈ g.ops, s.visited v = true) {I : Interp V} {truth : V → Bool}
    (hsel : Selects I truth) {c l r v : Nat} (hp : PhiOf g s c l r v) :
    ∃ x y, s.node v = ⟨.phi, [x, y]⟩ ∧ x ∈ s.ops l ∧ y ∈ s.ops r ∧
      flowVal I g s v = if truth (flowVal I g s c) then flowVal I g s x else flowVal I g s y := by
  obtain ⟨h0, x, y, a, b, h1, h2, h3, h4, h5, h6⟩ := hp
  refine ⟨x, y, h1, h5, h6, ?_⟩
  have hm : v ∈ g.ops := by
    by_contra hm
    rcases (h.made v (h.live v h0) hm).2 with ⟨c, hc, e, _⟩ | ⟨c, hc, e, _⟩ | ⟨k, e⟩ | ⟨u, k, e, hu, eu⟩ <;> rw [h1] at e <;> cases e
  have hxy : x ∉ g.ops ∧ y ∉ g.ops := by
    rcases h.placed v hm (hall v hm) with ⟨e, _⟩ | ⟨x', y', e, hx, hy, _⟩
    · rw [h1, h4] at e
      cases e
    · rw [h1] at e
      cases e
      exact ⟨hx, hy⟩
  have hcl : ∀ z ∈ [c, a, b], z ∈ g.ops := by
    have := hg.wf.closed v hm
    rwa [h4] at this
  have hc := hcl c (by simp)
  have ha := hcl a (by simp)
  have hb := hcl b (by simp)
  have hval := run_sat I hg.wf.nodup hg.order v hm
  rw [h4] at hval
  rw [flowVal_mem I hm, hval, flowVal_mem I hc, flowVal, if_neg hxy.1, flowVal, if_neg hxy.2, h2, h3]
  simp only [List.map_cons, List.map_nil, argVal, ha, hb, if_true, I.copy]
  exact hsel _ _ _

/-- Before copies are removed, the program runs to the end and computes the values of the input program along one path. -/
theorem exec_ok (hg : Input g) (h : Inv g usage ternaries s W) (hall : ∀ v ∈ g.ops, s.visited v = true) {I : Interp V} {truth : V → Bool}
    (hsel : Selects I truth) :
    ∃ m, exec I truth s s.blocks none W.entry .start = some m ∧
      m.done = (W.path (taken truth s (flowVal I g s))).flatMap s.ops ∧
      (∀ b ∈ W.path (taken truth s (flowVal I g s)), ∀ v ∈ s.ops b, Known (flowVal I g s) m v) ∧
      (∀ b ∈ W.path (taken truth s (flowVal I g s)), ∀ v ∈ s.ops b, (s.node v).op ≠ .phi → ∀ a ∈ (s.node v).args, Known (flowVal I g s) m a) := by
  have hparent : ∀ v ∈ s.live, s.parent v ≠ none := by
    intro v hv
    by_cases hm : v ∈ g.ops
    · exact (h.vis v hm).1 (hall v hm)
    · exact (h.made v hv hm).1
  have hscope : Scoped s (PhiOf g s) (fun _ => False) (fun _ => False) W := by
    refine scoped_transfer (s := s) (X := fun a => s.parent a = none) (fun _ _ _ _ h => h) W _ _ _ _ ?_ (fun a ha => .inl ha) (fun _ h => h) h.scope
    intro b _
    refine ⟨rfl, fun v hv => ⟨rfl, fun a ha _ => ?_⟩⟩
    have hpv := (h.ops b v).1 hv
    exact hparent a (h.closed v (h.live v (by rw [hpv]; simp)) a ha)
  obtain ⟨m, len, r⟩ := region_ok (I := I) (truth := truth) (s := s) (val := flowVal I g s) (Φ := PhiOf g s)
    (fun c l r v hp => flowVal_phi hg h hall hsel hp)
    (fun b v hv hp => flowVal_op hg h hall I (by rw [(h.ops b v).1 hv]; simp) hp)
    W (fun _ => False) (fun _ => False) none .start h.lay h.nodupW hscope (fun _ h => h.elim) (fun _ h => h.elim)
  have hlen : W.blocks.length = s.blocks := by
    have : W.blocks.Perm (List.range s.blocks) := (List.perm_ext_iff_of_nodup h.nodupW List.nodup_range).2 fun b => by
      rw [h.blocks, List.mem_range]
    rw [this.length_eq, List.length_range]
  refine ⟨m, ?_, by rw [r.done]; rfl, r.known, r.args⟩
  have hrun := r.run (s.blocks - len)
  have hle := r.len
  rw [show s.blocks - len + len = s.blocks by omega] at hrun
  rw [hrun]
  simp [after, h.stop]

end Wf.Gen
