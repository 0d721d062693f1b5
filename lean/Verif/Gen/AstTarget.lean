import Verif.Gen.AstVisit

/-!
# A value is sent to a variable by one operation of a block (used in proofs)
-/

namespace Wf.Gen

open Conv

variable {V : Type} [Arith V] {info : AstInfo} {g : Graph} {I : Interp V} {truth : V → Bool} {val : Nat → V} {W : Reg} {s : Conv}

omit [Arith V] in
theorem scoped_phi_desc {Φ : Nat → Nat → Nat → Nat → Prop} {v : Nat} (hphi : (s.node v).op = .phi) : ∀ (R : Reg) (A P : Nat → Prop), Lay s.anc s.desc R → R.blocks.Nodup →
    Scoped s Φ A P R → ∀ b ∈ R.blocks, v ∈ s.ops b → (b = R.entry ∧ P v) ∨ ∃ c l r, Φ c l r v ∧ s.desc l = [b] ∧ s.desc r = [b] ∧ l ≠ r
  | .last b, A, P, _, _, h, d, hd, hv => by
    simp only [Reg.blocks, List.mem_singleton] at hd
    subst hd
    exact .inl ⟨rfl, opsOk_phi hphi _ _ h hv⟩
  | .ite b l r rest, A, P, hl, hn, h, d, hd, hv => by
    simp only [Lay] at hl
    simp only [Scoped] at h
    obtain ⟨l1, l2, l3, l4, l5, l6, l7, l8, l9⟩ := hl
    obtain ⟨ho, c, hj, sl, sr, srest⟩ := h
    simp only [Reg.blocks, List.nodup_cons, List.nodup_append] at hn
    obtain ⟨_, ⟨nl, nr, nlr⟩, nrest, _⟩ := hn
    simp only [Reg.blocks, List.mem_cons, List.mem_append] at hd
    rcases hd with rfl | (hd | hd) | hd
    · exact .inl ⟨rfl, opsOk_phi hphi _ _ ho hv⟩
    · rcases scoped_phi_desc hphi l _ _ l7 nl sl d hd hv with ⟨_, hf⟩ | h
      · exact hf.elim
      · exact .inr h
    · rcases scoped_phi_desc hphi r _ _ l8 nr sr d hd hv with ⟨_, hf⟩ | h
      · exact hf.elim
      · exact .inr h
    · rcases scoped_phi_desc hphi rest _ _ l9 nrest srest d hd hv with ⟨e, hf⟩ | h
      · exact .inr ⟨c, l.exit, r.exit, hf, by rw [e]; exact l4, by rw [e]; exact l5, nlr _ l.exit_mem _ r.exit_mem⟩
      · exact .inr h
  | .opt b k l rest, A, P, hl, hn, h, d, hd, hv => by
    simp only [Lay] at hl
    simp only [Scoped] at h
    obtain ⟨l1, l2, l4, l6, l7, l9⟩ := hl
    obtain ⟨ho, c, hj, _, sl, srest⟩ := h
    simp only [Reg.blocks, List.nodup_cons, List.nodup_append] at hn
    obtain ⟨_, nl, nrest, _⟩ := hn
    simp only [Reg.blocks, List.mem_cons, List.mem_append] at hd
    rcases hd with rfl | hd | hd
    · exact .inl ⟨rfl, opsOk_phi hphi _ _ ho hv⟩
    · rcases scoped_phi_desc hphi l _ _ l7 nl sl d hd hv with ⟨_, hf⟩ | h
      · exact hf.elim
      · exact .inr h
    · rcases scoped_phi_desc hphi rest _ _ l9 nrest srest d hd hv with ⟨_, hf⟩ | h
      · exact hf.elim
      · exact .inr h

omit [Arith V] in
theorem Placed.same (h : Placed s) {b d v : Nat} (hb : v ∈ s.ops b) (hd : v ∈ s.ops d) : b = d := by
  have := h.parent b v hb
  rw [h.parent d v hd] at this
  cases this
  rfl

/-- The two values of a phi function are in different blocks, that lead only to the block of the phi function. -/
theorem Fine.phi_args (h : Fine info g I truth val W s) {d p : Nat} (hphi : (s.node p).op = .phi) (hd : p ∈ s.ops d) :
    ∃ l r x y, (s.node p).args = [x, y] ∧ x ∈ s.ops l ∧ y ∈ s.ops r ∧ s.desc l = [d] ∧ s.desc r = [d] ∧ l ≠ r := by
  rcases scoped_phi_desc hphi W _ _ h.lay h.nodup h.clean.scope d (h.clean.inside d p hd) hd with ⟨_, hf⟩ | ⟨c, l, r, ⟨x', y', e, hx', hy', _⟩, hl, hr, hlr⟩
  · exact hf.elim
  · exact ⟨l, r, x', y', by rw [e], hx', hy', hl, hr, hlr⟩

/-- A value that a phi function selects is in a block that leads only to the block of the phi function. -/
theorem Fine.phi_use (h : Fine info g I truth val W s) {b d x p : Nat} (hx : x ∈ s.ops b) (hp : p ∈ s.uses x) (hphi : (s.node p).op = .phi) (hd : p ∈ s.ops d) :
    s.desc b = [d] := by
  obtain ⟨l, r, x', y', e, hx', hy', hl, hr, _⟩ := h.phi_args hphi hd
  have ha := (mem_uses.1 hp).2
  rw [e] at ha
  rcases List.mem_cons.1 ha with rfl | ha
  · rw [h.placed.same hx hx']; exact hl
  · have := List.mem_singleton.1 ha
    subst this
    rw [h.placed.same hx hy']; exact hr

theorem Fine.later (h : Fine info g I truth val W s) : Later s.desc W.blocks := by
  have := later_append W [] h.lay (by rw [h.stop]; simp) (by rw [h.stop]; simp) trivial
  rwa [List.append_nil] at this

/-- A phi function that selects a value is in a later block. -/
theorem Fine.use_index (h : Fine info g I truth val W s) {b d x p : Nat} (hx : x ∈ s.ops b) (hp : p ∈ s.uses x) (hphi : (s.node p).op = .phi) (hd : p ∈ s.ops d) :
    W.blocks.idxOf b < W.blocks.idxOf d :=
  (h.later.index h.nodup (h.clean.inside b x hx) (by rw [h.phi_use hx hp hphi hd]; exact List.mem_singleton.2 rfl)).2

theorem Fine.target_index (h : Fine info g I truth val W s) {x t : Nat} (ht : Target s x t) : ∀ {b e : Nat}, x ∈ s.ops b → t ∈ s.ops e →
    W.blocks.idxOf b ≤ W.blocks.idxOf e := by
  induction ht with
  | own _ _ => intro b e hb he; rw [h.placed.same hb he]
  | step h1 h2 _ ih =>
    intro b e hb he
    obtain ⟨d, hd⟩ := h.use h1
    exact Nat.le_trans (Nat.le_of_lt (h.use_index hb h1 (isPhi_iff.1 h2) hd)) (ih hd he)

theorem Fine.target_ops (h : Fine info g I truth val W s) {x t : Nat} (ht : Target s x t) : (∃ b, x ∈ s.ops b) → ∃ e, t ∈ s.ops e := by
  induction ht with
  | own _ _ => exact id
  | step h1 _ _ ih => exact fun _ => ih (h.use h1)

/-- Two operations of a block are not sent to the same variable. -/
theorem Fine.target_unique (h : Fine info g I truth val W s) {x t : Nat} (ht : Target s x t) : ∀ {b x' : Nat}, x ∈ s.ops b → x' ∈ s.ops b → Target s x' t → x = x' := by
  have back : ∀ {x' t p d b : Nat}, x' ∈ s.ops b → t ∈ s.ops b → p ∈ s.uses x' → s.isPhi p = true → Target s p t → p ∈ s.ops d → False := by
    intro x' t p d b hx' htb hp hphi htp hd
    have h1 := h.use_index hx' hp (isPhi_iff.1 hphi) hd
    have h2 := h.target_index htp hd htb
    omega
  induction ht with
  | own _ _ =>
    intro b x' hx hx' ht'
    cases ht' with
    | own _ _ => rfl
    | step h1 h2 h3 =>
      obtain ⟨d, hd⟩ := h.use h1
      exact (back hx' hx h1 h2 h3 hd).elim
  | @step v p t h1 h2 h3 ih =>
    intro b x' hx hx' ht'
    obtain ⟨d, hd⟩ := h.use h1
    cases ht' with
    | own _ _ => exact (back hx hx' h1 h2 h3 hd).elim
    | @step _ p' _ h1' h2' h3' =>
      obtain ⟨d', hd'⟩ := h.use h1'
      have hdd := h.phi_use hx h1 (isPhi_iff.1 h2) hd
      rw [h.phi_use hx' h1' (isPhi_iff.1 h2') hd'] at hdd
      cases hdd
      have := ih hd hd' h3'
      subst this
      obtain ⟨l, r, y, y', e, hy, hy', _, _, hlr⟩ := h.phi_args (isPhi_iff.1 h2) hd
      have ha := (mem_uses.1 h1).2
      have ha' := (mem_uses.1 h1').2
      rw [e] at ha ha'
      simp only [List.mem_cons, List.not_mem_nil, or_false] at ha ha'
      rcases ha with rfl | rfl <;> rcases ha' with rfl | rfl
      · rfl
      · exact absurd ((h.placed.same hy hx).trans (h.placed.same hx' hy')) hlr
      · exact absurd ((h.placed.same hy hx').trans (h.placed.same hx hy')) hlr
      · rfl

/-- A phi function consumes a value once. -/
theorem Fine.uses_nodup (h : Fine info g I truth val W s) {v : Nat} : ((s.uses v).filter s.isPhi).Nodup := by
  have key : ∀ l : List Nat, l.Nodup → (∀ u ∈ l, u ∈ s.live) →
      ((l.flatMap fun u => (((s.node u).args.filter fun a => decide (a = v)).map fun _ => u)).filter s.isPhi).Nodup := by
    intro l
    induction l with
    | nil => intro _ _; simp
    | cons u l ih =>
      intro hn hl
      rw [List.nodup_cons] at hn
      rw [List.flatMap_cons, List.filter_append, List.nodup_append]
      refine ⟨?_, ih hn.2 fun w hw => hl w (List.mem_cons_of_mem _ hw), ?_⟩
      · by_cases hp : s.isPhi u = true
        · by_cases hu : v ∈ (s.node u).args
          · obtain ⟨d, hd⟩ := h.use (mem_uses.2 ⟨hl u List.mem_cons_self, hu⟩)
            obtain ⟨l', r', x, y, e, hx, hy, _, _, hlr⟩ := h.phi_args (isPhi_iff.1 hp) hd
            have hxy : x ≠ y := by rintro rfl; exact hlr (h.placed.same hx hy)
            rw [e]
            by_cases hxv : x = v
            · have hyv : y ≠ v := by rintro rfl; exact hxy hxv
              simp [hxv, hyv, hp]
            · by_cases hyv : y = v <;> simp [hxv, hyv, hp]
          · have : (s.node u).args.filter (fun a => decide (a = v)) = [] := by
              rw [List.filter_eq_nil_iff]
              intro a ha
              have : a ≠ v := by rintro rfl; exact hu ha
              simpa using this
            rw [this]
            simp
        · have : ((((s.node u).args.filter fun a => decide (a = v)).map fun _ => u).filter s.isPhi) = [] := by
            rw [List.filter_eq_nil_iff]
            intro w hw
            obtain ⟨_, _, rfl⟩ := List.mem_map.1 hw
            exact hp
          rw [this]
          exact List.nodup_nil
      · intro a ha a' ha'
        obtain ⟨_, _, rfl⟩ := List.mem_map.1 (List.mem_filter.1 ha).1
        obtain ⟨w, hw, hm⟩ := List.mem_flatMap.1 (List.mem_filter.1 ha').1
        obtain ⟨_, _, rfl⟩ := List.mem_map.1 hm
        rintro rfl
        exact hn.1 hw
  exact key s.live h.live fun _ h => h

/-- The variables that receive a value are listed once. -/
theorem Fine.targets_nodup (h : Fine info g I truth val W s) : ∀ (n v b : Nat) (l : List Nat), v ∈ s.ops b → s.targets n v = .ok l → l.Nodup
  | 0, v, b, l, _, e => by cases e
  | n + 1, v, b, l, hv, e => by
    rw [targets] at e
    cases hm : ((s.uses v).filter s.isPhi).mapM (targets s n) with
    | error x => rw [hm] at e; cases e
    | ok ls =>
      rw [hm] at e
      cases e
      have key : ∀ (ps : List Nat) (ls : List (List Nat)), ps.mapM (targets s n) = .ok ls → ps.Nodup → (∀ p ∈ ps, p ∈ s.uses v ∧ s.isPhi p = true) →
          ls.flatten.Nodup ∧ ∀ t ∈ ls.flatten, ∃ p ∈ ps, Target s p t := by
        intro ps
        induction ps with
        | nil =>
          intro ls h
          cases h
          simp
        | cons p ps ih =>
          intro ls e hn hps
          rw [List.mapM_cons] at e
          cases h1 : targets s n p with
          | error e' => rw [h1] at e; cases e
          | ok l1 =>
            rw [h1] at e
            change (ps.mapM (targets s n) >>= _) = _ at e
            cases h2 : ps.mapM (targets s n) with
            | error e' => rw [h2] at e; cases e
            | ok l2 =>
              rw [h2] at e
              cases e
              rw [List.nodup_cons] at hn
              obtain ⟨hp, hphi⟩ := hps p List.mem_cons_self
              obtain ⟨d, hd⟩ := h.use hp
              obtain ⟨i1, i2⟩ := ih l2 h2 hn.2 fun q hq => hps q (List.mem_cons_of_mem _ hq)
              rw [List.flatten_cons, List.nodup_append]
              refine ⟨⟨h.targets_nodup n p d l1 hd h1, i1, ?_⟩, ?_⟩
              · intro t ht t' ht'
                rintro rfl
                obtain ⟨q, hq, hqt⟩ := i2 t ht'
                obtain ⟨hq1, hq2⟩ := hps q (List.mem_cons_of_mem _ hq)
                obtain ⟨d', hd'⟩ := h.use hq1
                have hdd := h.phi_use hv hp (isPhi_iff.1 hphi) hd
                rw [h.phi_use hv hq1 (isPhi_iff.1 hq2) hd'] at hdd
                cases hdd
                have := h.target_unique ((mem_targets n p l1 h1 t).1 ht) hd hd' hqt
                subst this
                exact hn.1 hq
              · intro t ht
                rcases List.mem_append.1 ht with ht | ht
                · exact ⟨p, List.mem_cons_self, (mem_targets n p l1 h1 t).1 ht⟩
                · obtain ⟨q, hq, hqt⟩ := i2 t ht
                  exact ⟨q, List.mem_cons_of_mem _ hq, hqt⟩
      obtain ⟨k1, k2⟩ := key _ _ hm h.uses_nodup fun p hp => List.mem_filter.1 hp
      rw [List.nodup_append]
      refine ⟨k1, ?_, ?_⟩
      · rw [ownTarget]
        split <;> simp
      · intro t ht t' ht'
        rintro rfl
        obtain ⟨p, hp, hpt⟩ := k2 t ht
        rw [ownTarget] at ht'
        split at ht'
        · rw [List.mem_singleton.1 ht'] at hpt
          obtain ⟨hp1, hp2⟩ := List.mem_filter.1 hp
          obtain ⟨d, hd⟩ := h.use hp1
          have h1 := h.use_index hv hp1 (isPhi_iff.1 hp2) hd
          have h2 := h.target_index hpt hd hv
          omega
        · cases ht'

end Wf.Gen
