import Verif.Gen.AstClean

/-!
# The facts hold after the conversion to control flow (used in proofs)
-/

namespace Wf.Gen

open Conv

variable {V : Type} [Arith V] {info : AstInfo} {g : Graph} {usage : Nat → Usage} {ternaries : Bool} {s : Conv} {W : Reg}

omit [Arith V] in
theorem Scoped.entry_ok {Φ : Nat → Nat → Nat → Nat → Prop} {A P : Nat → Prop} : ∀ {R : Reg}, Scoped s Φ A P R → OpsOk s P A (s.ops R.entry)
  | .last _, h => h
  | .ite _ _ _ _, h => h.1
  | .opt _ _ _ _, h => h.1

theorem Jumps.unique {b c c' : Nat} (h : Jumps s b c) (h' : Jumps s b c') : c = c' := by
  obtain ⟨u, h1, h2⟩ := h
  obtain ⟨u', h3, h4⟩ := h'
  rw [h1] at h3
  cases h3
  rw [h2] at h4
  cases h4
  rfl

/-- A jump tests the condition of a phi function, or asks whether an output is wanted. -/
theorem jump_cond {Φ : Nat → Nat → Nat → Nat → Prop} {d c : Nat} (hj : Jumps s d c) (hlen : (s.desc d).length = 2) : ∀ (R : Reg) (A P : Nat → Prop), Lay s.anc s.desc R →
    Scoped s Φ A P R → HasPhi s R → d ∈ R.blocks → d = R.exit ∨ (∃ l r v, Φ c l r v) ∨ ∃ k, s.node c = ⟨.outputRequired k, []⟩
  | .last b, A, P, _, _, _, hd => .inl (by simpa [Reg.blocks, Reg.exit] using hd)
  | .ite b l r rest, A, P, hl, hs, hp, hd => by
    simp only [Lay] at hl
    simp only [Scoped] at hs
    obtain ⟨l1, l2, l3, l4, l5, l6, l7, l8, l9⟩ := hl
    obtain ⟨ho, c', hj', sl, sr, srest⟩ := hs
    obtain ⟨⟨v, hv, hphi⟩, pl, pr, prest⟩ := hp
    simp only [Reg.blocks, List.mem_cons, List.mem_append] at hd
    rcases hd with rfl | (hd | hd) | hd
    · cases hj.unique hj'
      exact .inr (.inl ⟨_, _, v, opsOk_phi hphi _ _ srest.entry_ok hv⟩)
    · rcases jump_cond hj hlen l _ _ l7 sl pl hd with e | h
      · rw [e, l4] at hlen; cases hlen
      · exact .inr h
    · rcases jump_cond hj hlen r _ _ l8 sr pr hd with e | h
      · rw [e, l5] at hlen; cases hlen
      · exact .inr h
    · rcases jump_cond hj hlen rest _ _ l9 srest prest hd with e | h
      · exact .inl e
      · exact .inr h
  | .opt b k l rest, A, P, hl, hs, hp, hd => by
    simp only [Lay] at hl
    simp only [Scoped] at hs
    obtain ⟨l1, l2, l4, l6, l7, l9⟩ := hl
    obtain ⟨ho, c', hj', hc, sl, srest⟩ := hs
    obtain ⟨pl, prest⟩ := hp
    simp only [Reg.blocks, List.mem_cons, List.mem_append] at hd
    rcases hd with rfl | hd | hd
    · cases hj.unique hj'
      exact .inr (.inr ⟨k, hc.2⟩)
    · rcases jump_cond hj hlen l _ _ l7 sl pl hd with e | h
      · rw [e, l4] at hlen; cases hlen
      · exact .inr h
    · rcases jump_cond hj hlen rest _ _ l9 srest prest hd with e | h
      · exact .inl e
      · exact .inr h

theorem Reg.exits_none {b : Nat} : ∀ R : Reg, (b, none) ∈ R.exits → b = R.exit
  | .last d, h => by simpa [Reg.exits, Reg.exit] using h
  | .ite d l r rest, h => Reg.exits_none rest h
  | .opt d k l rest, h => by
    simp only [Reg.exits, List.mem_cons, Prod.mk.injEq, reduceCtorEq, and_false, false_or] at h
    exact Reg.exits_none rest h

theorem Inv.to_clean (hg : Input g) (h : Inv g info.usage ternaries s W) (hall : ∀ v ∈ g.ops, s.visited v = true) (hz : Lazy g s W) (hfull : ArmsFull s W)
    (hret : ∀ v ∈ g.ops, ∀ key, (g.node v).op = .save key → info.usage key = .returnValue → (s.ops W.exit).getLast? = some v)
    (ht : Typed info g) (hown : OwnStructs info g) {I : Interp V} {truth : V → Bool} (hsel : Selects I truth) :
    Clean info g I truth (flowVal I g s) W s := by
  have hparent : ∀ v ∈ s.live, s.parent v ≠ none := by
    intro v hv
    by_cases hm : v ∈ g.ops
    · exact (h.vis v hm).1 (hall v hm)
    · exact (h.made v hv hm).1
  have hops : ∀ v, s.parent v ≠ none → ∃ b, v ∈ s.ops b := by
    intro v hv
    cases hp : s.parent v with
    | none => exact absurd hp hv
    | some b => exact ⟨b, (h.ops b v).2 hp⟩
  have hpl : ∀ b, ∀ v ∈ s.ops b, s.parent v ≠ none := fun b v hv => by rw [(h.ops b v).1 hv]; simp
  have hlive : ∀ b, ∀ v ∈ s.ops b, v ∈ s.live := fun b v hv => h.live v (hpl b v hv)
  have hscope : Scoped s (PhiOf g s) (fun _ => False) (fun _ => False) W := by
    refine scoped_transfer (s := s) (X := fun a => s.parent a = none) (fun _ _ _ _ h => h) W _ _ _ _ ?_ (fun a ha => .inl ha) (fun _ h => h) h.scope
    intro b _
    exact ⟨rfl, fun v hv => ⟨rfl, fun a ha _ => hparent a (h.closed v (hlive b v hv) a ha)⟩⟩
  -- operations that are not conditionals keep their node
  have hnode : ∀ v ∈ g.ops, (g.node v).op ≠ .cond → s.node v = g.node v := by
    intro v hv hc
    rcases h.placed v hv (hall v hv) with ⟨e, _⟩ | ⟨x, y, e, _, _, hco⟩
    · exact e
    · exact absurd hco hc
  have hkind : ∀ b, ∀ v ∈ s.ops b, (s.node v).op ≠ .copy → (s.node v).op ≠ .phi → (s.node v).op ≠ .jump → (∀ k, (s.node v).op ≠ .outputRequired k) →
      v ∈ g.ops ∧ s.node v = g.node v := by
    intro b v hv h1 h2 h3 h4
    by_cases hm : v ∈ g.ops
    · refine ⟨hm, ?_⟩
      rcases h.placed v hm (hall v hm) with ⟨e, _⟩ | ⟨x, y, e, _⟩
      · exact e
      · rw [e] at h2; exact absurd rfl h2
    · exfalso
      rcases (h.made v (hlive b v hv) hm).2 with ⟨c, hc, e, _⟩ | ⟨c, hc, e, _⟩ | ⟨k, e⟩ | ⟨u, k, e, hu, eu⟩ <;> rw [e] at h1 h2 h3 h4
      · exact h1 rfl
      · exact h3 rfl
      · exact h4 k rfl
      · exact h3 rfl
  have hsave : ∀ b, ∀ v ∈ s.ops b, ∀ key, (s.node v).op = .save key → v ∈ g.ops ∧ s.node v = g.node v := fun b v hv key hk =>
    hkind b v hv (by rw [hk]; simp) (by rw [hk]; simp) (by rw [hk]; simp) (by rw [hk]; simp)
  have hphi : ∀ b, ∀ v ∈ s.ops b, (s.node v).op = .phi → ∃ c l r, PhiOf g s c l r v := by
    intro b v hv hp
    rcases scoped_phi hp W _ _ h.lay hscope b (h.parent v b ((h.ops b v).1 hv)) hv with ⟨_, hf⟩ | ⟨c, l, r, hp, _⟩
    · exact hf.elim
    · exact ⟨c, l, r, hp⟩
  have hcondmem : ∀ c l r v, PhiOf g s c l r v → v ∈ g.ops := by
    intro c l r v ⟨h0, x, y, a, b, h1, _⟩
    by_contra hm
    rcases (h.made v (h.live v h0) hm).2 with ⟨c, hc, e, _⟩ | ⟨c, hc, e, _⟩ | ⟨k, e⟩ | ⟨u, k, e, hu, eu⟩ <;> rw [h1] at e <;> cases e
  refine ⟨?_, ?_, ?_, ?_, ?_, ?_, ?_, ?_, hz.phis, ?_, hfull, ?_, ?_, ?_, ?_, ?_⟩
  · refine scoped_transfer (s := s) (X := fun _ => False) (fun c l r v hp => ?_) W _ _ _ _ (fun b _ => ⟨rfl, fun v _ => ⟨rfl, fun _ _ _ h => h⟩⟩)
      (fun a ha => .inr ha) (fun _ h => h) hscope
    obtain ⟨x, y, e, hx, hy, hv⟩ := flowVal_phi hg h hall hsel hp
    refine ⟨x, y, e, hx, hy, hv, ?_, hops v hp.1⟩
    have hm := hcondmem c l r v hp
    obtain ⟨_, _, _, a, b, _, _, _, e4, _⟩ := hp
    have hc : c ∈ g.ops := hg.wf.closed v hm c (by rw [e4]; simp)
    intro k hk
    rcases h.placed c hc (hall c hc) with ⟨e, _⟩ | ⟨x, y, e, _⟩ <;> rw [e] at hk
    · exact (hg.conv.flat c hc).2.2 k hk
    · cases hk
  · exact fun b v hv => h.parent v b ((h.ops b v).1 hv)
  · exact fun b v hv hp => flowVal_op hg h hall I (hpl b v hv) hp
  · exact fun u hu a _ => hops u (hparent u hu)
  · intro b v hv ho
    obtain ⟨hm, e⟩ := hkind b v hv (by rcases ho with ⟨_, ho⟩ | ⟨_, ho⟩ <;> rw [ho] <;> simp) (by rcases ho with ⟨_, ho⟩ | ⟨_, ho⟩ <;> rw [ho] <;> simp)
      (by rcases ho with ⟨_, ho⟩ | ⟨_, ho⟩ <;> rw [ho] <;> simp) (by rcases ho with ⟨_, ho⟩ | ⟨_, ho⟩ <;> rw [ho] <;> simp)
    rw [e] at ho ⊢
    exact hg.wf.unary v hm (.inr (.inr ho))
  · intro b v hv ho
    obtain ⟨hm, e⟩ := hkind b v hv (by rw [ho]; simp) (by rw [ho]; simp) (by rw [ho]; simp) (by rw [ho]; simp)
    rw [e] at ho ⊢
    exact hg.wf.arity v hm (by rw [ho]; rfl)
  · intro b v hv i ho hi
    obtain ⟨hm, e⟩ := hkind b v hv (by rw [ho]; simp) (by rw [ho]; simp) (by rw [ho]; simp) (by rw [ho]; simp)
    rw [e] at ho ⊢
    obtain ⟨a, f, h1, h2⟩ := ht.scalarGet v hm i ho hi
    refine ⟨a, f, h1, ?_⟩
    rw [hnode a (hg.wf.closed v hm a (by rw [h1]; exact List.mem_singleton.2 rfl)) (by rw [h2]; simp)]
    exact h2
  · intro b v hv a ha hs
    by_cases ham : a ∈ g.ops
    · rcases h.placed a ham (hall a ham) with ⟨e, _⟩ | ⟨x, y, e, _⟩
      · exfalso
        have hns := h.arg_not_save hg (hlive b v hv) ham ha
        obtain ⟨f1, f2, f3⟩ := hg.conv.flat a ham
        rw [e] at hs
        cases ho : (g.node a).op with
        | save k => exact hns k ho
        | phi => exact f1 ho
        | jump => exact f2 ho
        | outputRequired k => exact f3 k ho
        | _ => rw [ho] at hs; cases hs
      · left; rw [e]
    · by_cases hvm : v ∈ g.ops
      · rcases h.placed v hvm (hall v hvm) with ⟨e, _⟩ | ⟨x, y, e, _⟩
        · rw [e] at ha
          exact absurd (hg.wf.closed v hvm a ha) ham
        · exfalso
          obtain ⟨c, l, r, _, x', y', a', b', e1, e2, e3, _⟩ := hphi b v hv (by rw [e])
          rw [e1] at ha
          simp only [List.mem_cons, List.not_mem_nil, or_false] at ha
          rcases ha with rfl | rfl
          · rw [e2] at hs; cases hs
          · rw [e3] at hs; cases hs
      · rcases (h.made v (hlive b v hv) hvm).2 with ⟨c, hc, e, _⟩ | ⟨c, hc, e, _⟩ | ⟨k, e⟩ | ⟨u, k, e, hu, eu⟩ <;> rw [e] at ha
        · rw [List.mem_singleton.1 ha] at ham; exact absurd hc ham
        · rw [List.mem_singleton.1 ha] at ham; exact absurd hc ham
        · cases ha
        · rw [List.mem_singleton.1 ha, e, eu]
          exact .inr ⟨rfl, k, rfl⟩
  · exact fun b v hv hj => (hz.jumps b v hv hj).2
  · intro b v hv key ho hr
    obtain ⟨hm, e⟩ := hsave b v hv key ho
    rw [e] at ho
    have := h.saves v hm key b ho ((h.ops b v).1 hv)
    rw [if_neg (by rw [hr]; simp)] at this
    have hb := Reg.exits_none W this
    exact ⟨hb, by rw [hb]; exact hret v hm key ho hr⟩
  · intro b v hv key ho hr hk a ha
    obtain ⟨hm, e⟩ := hsave b v hv key ho
    rw [e] at ho ha
    obtain ⟨ty, h1, h2⟩ := ht.matrix v hm key ho hr hk a ha
    refine ⟨ty, ?_, h2⟩
    rw [hnode a (hg.wf.closed v hm a ha) (by rw [h1]; simp)]
    exact h1
  · intro b v hv key ho hr hk a ha
    obtain ⟨hm, e⟩ := hsave b v hv key ho
    rw [e] at ho ha
    obtain ⟨⟨ty, h1, h2⟩, h3⟩ := hown v hm key ho hr hk a ha
    have ham := hg.wf.closed v hm a ha
    refine ⟨⟨ty, by rw [hnode a ham (by rw [h1]; simp)]; exact h1, h2⟩, ?_⟩
    have hno : ∀ c x y u, u ∈ g.ops → g.node u = ⟨.cond, [c, x, y]⟩ → a ∈ [c, x, y] → False := by
      intro c x y u hu hn hx
      have := h3 u hu (by rw [hn]; exact hx)
      rw [this] at hn
      rw [hn] at ho
      cases ho
    intro d w hw haw
    by_cases hwm : w ∈ g.ops
    · rcases h.placed w hwm (hall w hwm) with ⟨e, _⟩ | ⟨x, y, e, hx, hy, _⟩
      · rw [e] at haw; exact h3 w hwm haw
      · rw [e] at haw
        simp only [List.mem_cons, List.not_mem_nil, or_false] at haw
        rcases haw with rfl | rfl
        · exact absurd ham hx
        · exact absurd ham hy
    · exfalso
      rcases (h.made w (hlive d w hw) hwm).2 with ⟨c, hc, e, _⟩ | ⟨c, hc, e, _⟩ | ⟨k, e⟩ | ⟨u, k, e, hu, eu⟩ <;> rw [e] at haw
      · cases List.mem_singleton.1 haw
        obtain ⟨d', u, hu, hup, hwu⟩ := hz.copies w (hlive d w hw) hwm (by rw [e])
        obtain ⟨c, l, r, hp⟩ := hphi d' u hu hup
        have hum := hcondmem c l r u hp
        obtain ⟨_, x', y', a', b', e1, e2, e3, e4, _⟩ := hp
        rw [e1] at hwu
        simp only [List.mem_cons, List.not_mem_nil, or_false] at hwu
        rcases hwu with rfl | rfl
        · rw [e] at e2; cases e2
          exact hno _ _ _ u hum e4 (by simp)
        · rw [e] at e3; cases e3
          exact hno _ _ _ u hum e4 (by simp)
      · cases List.mem_singleton.1 haw
        obtain ⟨hlast, hlen⟩ := hz.jumps d w hw (by rw [e])
        rcases jump_cond (d := d) (c := a) ⟨w, hlast, e⟩ hlen W _ _ h.lay hscope hz.phis (h.parent w d ((h.ops d w).1 hw)) with h1 | ⟨l, r, u, hp⟩ | ⟨k, hk⟩
        · rw [h1, h.stop] at hlen; cases hlen
        · have hum := hcondmem a l r u hp
          obtain ⟨_, x', y', a', b', _, _, _, e4, _⟩ := hp
          exact hno _ _ _ u hum e4 (by simp)
        · rw [hnode a ham (by rw [h1]; simp)] at hk
          rw [hk] at h1
          cases h1
      · cases haw
      · cases List.mem_singleton.1 haw
        exact hu ham
  · intro b v hv key ho
    obtain ⟨hm, e⟩ := hsave b v hv key ho
    rw [e] at ho ⊢
    refine ⟨hm, ho, List.map_congr_left fun a ha => flowVal_mem I (hg.wf.closed v hm a ha), ?_⟩
    exact h.saves v hm key b ho ((h.ops b v).1 hv)
  · intro v hv key ho
    obtain ⟨b, hb⟩ := hops v ((h.vis v hv).1 (hall v hv))
    exact ⟨b, hb, by rw [hnode v hv (by rw [ho]; simp)]; exact ho⟩

end Wf.Gen
