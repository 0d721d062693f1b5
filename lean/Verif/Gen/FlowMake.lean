import Verif.Gen.FlowBranch

/-!
# Linking the blocks of a branch (used in proofs)
-/

namespace Wf.Gen

open Conv

section Edges

variable {anc desc anc' desc' : Nat → List Nat}

theorem lay_congr : ∀ (R : Reg), (∀ b ∈ R.blocks, anc' b = anc b ∧ desc' b = desc b) → Lay anc desc R → Lay anc' desc' R
  | .last _, _, _ => trivial
  | .ite b l r rest, h, hl => by
    simp only [Reg.blocks, List.mem_cons, List.mem_append] at h
    simp only [Lay] at hl ⊢
    obtain ⟨h1, h2, h3, h4, h5, h6, h7, h8, h9⟩ := hl
    have hL : ∀ b ∈ l.blocks, anc' b = anc b ∧ desc' b = desc b := fun b hb => h b (.inr (.inl (.inl hb)))
    have hR : ∀ b ∈ r.blocks, anc' b = anc b ∧ desc' b = desc b := fun b hb => h b (.inr (.inl (.inr hb)))
    have hT : ∀ b ∈ rest.blocks, anc' b = anc b ∧ desc' b = desc b := fun b hb => h b (.inr (.inr hb))
    rw [(h b (.inl rfl)).2, (hL _ l.entry_mem).1, (hR _ r.entry_mem).1, (hL _ l.exit_mem).2, (hR _ r.exit_mem).2, (hT _ rest.entry_mem).1]
    exact ⟨h1, h2, h3, h4, h5, h6, lay_congr l hL h7, lay_congr r hR h8, lay_congr rest hT h9⟩
  | .opt b k l rest, h, hl => by
    simp only [Reg.blocks, List.mem_cons, List.mem_append] at h
    simp only [Lay] at hl ⊢
    obtain ⟨h1, h2, h4, h6, h7, h9⟩ := hl
    have hL : ∀ b ∈ l.blocks, anc' b = anc b ∧ desc' b = desc b := fun b hb => h b (.inr (.inl hb))
    have hT : ∀ b ∈ rest.blocks, anc' b = anc b ∧ desc' b = desc b := fun b hb => h b (.inr (.inr hb))
    rw [(h b (.inl rfl)).2, (hL _ l.entry_mem).1, (hL _ l.exit_mem).2, (hT _ rest.entry_mem).1]
    exact ⟨h1, h2, h4, h6, lay_congr l hL h7, lay_congr rest hT h9⟩

theorem lay_congr_tail (R : Reg) (hd : ∀ b ∈ R.blocks, desc' b = desc b) (ha : ∀ b ∈ R.tail, anc' b = anc b) (hl : Lay anc desc R) : Lay anc' desc' R := by
  cases R with
  | last b => trivial
  | ite b l r rest =>
    have hL : ∀ d ∈ l.blocks, anc' d = anc d ∧ desc' d = desc d := fun d hm => ⟨ha d (by simp [Reg.tail, hm]), hd d (by simp [Reg.blocks, hm])⟩
    have hR : ∀ d ∈ r.blocks, anc' d = anc d ∧ desc' d = desc d := fun d hm => ⟨ha d (by simp [Reg.tail, hm]), hd d (by simp [Reg.blocks, hm])⟩
    have hT : ∀ d ∈ rest.blocks, anc' d = anc d ∧ desc' d = desc d := fun d hm => ⟨ha d (by simp [Reg.tail, hm]), hd d (by simp [Reg.blocks, hm])⟩
    simp only [Lay] at hl ⊢
    obtain ⟨h1, h2, h3, h4, h5, h6, h7, h8, h9⟩ := hl
    rw [hd b (by simp [Reg.blocks]), (hL _ l.entry_mem).1, (hR _ r.entry_mem).1, (hL _ l.exit_mem).2, (hR _ r.exit_mem).2, (hT _ rest.entry_mem).1]
    exact ⟨h1, h2, h3, h4, h5, h6, lay_congr l hL h7, lay_congr r hR h8, lay_congr rest hT h9⟩
  | opt b k l rest =>
    have hL : ∀ d ∈ l.blocks, anc' d = anc d ∧ desc' d = desc d := fun d hm => ⟨ha d (by simp [Reg.tail, hm]), hd d (by simp [Reg.blocks, hm])⟩
    have hT : ∀ d ∈ rest.blocks, anc' d = anc d ∧ desc' d = desc d := fun d hm => ⟨ha d (by simp [Reg.tail, hm]), hd d (by simp [Reg.blocks, hm])⟩
    simp only [Lay] at hl ⊢
    obtain ⟨h1, h2, h4, h6, h7, h9⟩ := hl
    rw [hd b (by simp [Reg.blocks]), (hL _ l.entry_mem).1, (hL _ l.exit_mem).2, (hT _ rest.entry_mem).1]
    exact ⟨h1, h2, h4, h6, lay_congr l hL h7, lay_congr rest hT h9⟩

theorem Frame.block_mem (f : Frame) : f.block ∈ f.blocks := by cases f <;> simp [Frame.block, Frame.blocks]

/-- One frame: the block of the frame now leads to the new entry. -/
theorem lay_put_change {f : Frame} {Q Q' : Reg} (h : Lay anc desc (f.put Q)) (hn : (f.put Q).blocks.Nodup) (hQ : Lay anc' desc' Q')
    (hex : Q'.exit = Q.exit) (hd : desc' f.block = replaceFirst Q.entry Q'.entry (desc f.block)) (ha : anc' Q'.entry = [f.block])
    (hexd : desc' Q.exit = desc Q.exit) (hc : ∀ b ∈ f.blocks, anc' b = anc b ∧ (b ≠ f.block → desc' b = desc b)) :
    Lay anc' desc' (f.put Q') := by
  have hperm := (f.blocks_put Q).nodup_iff.1 hn
  rw [List.nodup_append] at hperm
  obtain ⟨_, hnf, hdis⟩ := hperm
  cases f with
  | left b r rest =>
    simp only [Frame.blocks, List.nodup_cons, List.mem_append, not_or] at hnf
    have hR : ∀ d ∈ r.blocks, anc' d = anc d ∧ desc' d = desc d := fun d hm =>
      ⟨(hc d (by simp [Frame.blocks, hm])).1, (hc d (by simp [Frame.blocks, hm])).2 (by rintro rfl; exact hnf.1.1 hm)⟩
    have hT : ∀ d ∈ rest.blocks, anc' d = anc d ∧ desc' d = desc d := fun d hm =>
      ⟨(hc d (by simp [Frame.blocks, hm])).1, (hc d (by simp [Frame.blocks, hm])).2 (by rintro rfl; exact hnf.1.2 hm)⟩
    simp only [Frame.put, Lay, Frame.block] at h hd ha ⊢
    obtain ⟨h1, h2, h3, h4, h5, h6, h7, h8, h9⟩ := h
    rw [hd, h1, ha, (hR _ r.entry_mem).1, (hR _ r.exit_mem).2, (hT _ rest.entry_mem).1, hex, hexd]
    exact ⟨by simp [replaceFirst], rfl, h3, h4, h5, h6, hQ, lay_congr r hR h8, lay_congr rest hT h9⟩
  | right b l rest =>
    simp only [Frame.blocks, List.nodup_cons, List.mem_append, not_or] at hnf
    have hR : ∀ d ∈ l.blocks, anc' d = anc d ∧ desc' d = desc d := fun d hm =>
      ⟨(hc d (by simp [Frame.blocks, hm])).1, (hc d (by simp [Frame.blocks, hm])).2 (by rintro rfl; exact hnf.1.1 hm)⟩
    have hT : ∀ d ∈ rest.blocks, anc' d = anc d ∧ desc' d = desc d := fun d hm =>
      ⟨(hc d (by simp [Frame.blocks, hm])).1, (hc d (by simp [Frame.blocks, hm])).2 (by rintro rfl; exact hnf.1.2 hm)⟩
    have hne : l.entry ≠ Q.entry := fun e => hdis _ Q.entry_mem _ (by simp [Frame.blocks, l.entry_mem]) e.symm
    simp only [Frame.put, Lay, Frame.block] at h hd ha ⊢
    obtain ⟨h1, h2, h3, h4, h5, h6, h7, h8, h9⟩ := h
    rw [hd, h1, ha, (hR _ l.entry_mem).1, (hR _ l.exit_mem).2, (hT _ rest.entry_mem).1, hex, hexd]
    exact ⟨by simp [replaceFirst, hne], h2, rfl, h4, h5, h6, lay_congr l hR h7, hQ, lay_congr rest hT h9⟩
  | arm b k rest =>
    simp only [Frame.blocks, List.nodup_cons] at hnf
    have hT : ∀ d ∈ rest.blocks, anc' d = anc d ∧ desc' d = desc d := fun d hm =>
      ⟨(hc d (by simp [Frame.blocks, hm])).1, (hc d (by simp [Frame.blocks, hm])).2 (by rintro rfl; exact hnf.1 hm)⟩
    simp only [Frame.put, Lay, Frame.block] at h hd ha ⊢
    obtain ⟨h1, h2, h4, h6, h7, h9⟩ := h
    rw [hd, h1, ha, (hT _ rest.entry_mem).1, hex, hexd]
    exact ⟨by simp [replaceFirst], rfl, h4, h6, hQ, lay_congr rest hT h9⟩

theorem Frame.exit_mem (f : Frame) (Q : Reg) : (f.put Q).exit ∈ f.blocks := by
  cases f <;> simp [Frame.put, Reg.exit, Frame.blocks, Reg.exit_mem]

/-- The entry of the piece stays: everything around it stays. -/
theorem lay_plug_same : ∀ (fs : List Frame) (Q Q' : Reg), Lay anc desc (plug fs Q) → Lay anc' desc' Q' → Q'.entry = Q.entry → Q'.exit = Q.exit →
    (∀ b ∈ ctxBlocks fs, anc' b = anc b ∧ desc' b = desc b) → anc' Q.entry = anc Q.entry → desc' Q.exit = desc Q.exit → Lay anc' desc' (plug fs Q')
  | [], Q, Q', _, hQ, _, _, _, _, _ => hQ
  | f :: fs, Q, Q', h, hQ, he, hx, hc, ha, hd => by
    have hcf : ∀ b ∈ f.blocks, anc' b = anc b ∧ desc' b = desc b := fun b hb => hc b (List.mem_append_left _ hb)
    refine lay_plug_same fs (f.put Q) (f.put Q') h ?_ (by rw [Frame.entry_put, Frame.entry_put]) (exit_put hx)
      (fun b hb => hc b (List.mem_append_right _ hb)) ?_ ?_
    · have hl := lay_plug (fs := fs) h
      cases f with
      | left b r rest =>
        have hR : ∀ d ∈ r.blocks, anc' d = anc d ∧ desc' d = desc d := fun d hd => hcf d (by simp [Frame.blocks, hd])
        have hT : ∀ d ∈ rest.blocks, anc' d = anc d ∧ desc' d = desc d := fun d hd => hcf d (by simp [Frame.blocks, hd])
        simp only [Frame.put, Lay] at hl ⊢
        obtain ⟨h1, h2, h3, h4, h5, h6, h7, h8, h9⟩ := hl
        rw [he, hx, (hcf b (by simp [Frame.blocks])).2, ha, hd, (hR _ r.entry_mem).1, (hR _ r.exit_mem).2, (hT _ rest.entry_mem).1]
        exact ⟨h1, h2, h3, h4, h5, h6, hQ, lay_congr r hR h8, lay_congr rest hT h9⟩
      | right b l rest =>
        have hR : ∀ d ∈ l.blocks, anc' d = anc d ∧ desc' d = desc d := fun d hd => hcf d (by simp [Frame.blocks, hd])
        have hT : ∀ d ∈ rest.blocks, anc' d = anc d ∧ desc' d = desc d := fun d hd => hcf d (by simp [Frame.blocks, hd])
        simp only [Frame.put, Lay] at hl ⊢
        obtain ⟨h1, h2, h3, h4, h5, h6, h7, h8, h9⟩ := hl
        rw [he, hx, (hcf b (by simp [Frame.blocks])).2, ha, hd, (hR _ l.entry_mem).1, (hR _ l.exit_mem).2, (hT _ rest.entry_mem).1]
        exact ⟨h1, h2, h3, h4, h5, h6, lay_congr l hR h7, hQ, lay_congr rest hT h9⟩
      | arm b k rest =>
        have hT : ∀ d ∈ rest.blocks, anc' d = anc d ∧ desc' d = desc d := fun d hd => hcf d (by simp [Frame.blocks, hd])
        simp only [Frame.put, Lay] at hl ⊢
        obtain ⟨h1, h2, h4, h6, h7, h9⟩ := hl
        rw [he, hx, (hcf b (by simp [Frame.blocks])).2, ha, hd, (hT _ rest.entry_mem).1]
        exact ⟨h1, h2, h4, h6, hQ, lay_congr rest hT h9⟩
    · rw [Frame.entry_put]; exact (hcf _ f.block_mem).1
    · exact (hcf _ (f.exit_mem Q)).2

/-- The first descendants of the block of a frame. -/
theorem frame_desc {f : Frame} {Q : Reg} (h : Lay anc desc (f.put Q)) : Q.entry ∈ desc f.block ∧ (desc f.block).length = 2 := by
  cases f <;> simp only [Frame.put, Lay, Frame.block] at h ⊢ <;> rw [h.1] <;> simp

end Edges

theorem scoped_sub {s : Conv} {Φ : Nat → Nat → Nat → Nat → Prop} : ∀ (fs : List Frame) (R : Reg) (A P : Nat → Prop), Scoped s Φ A P (plug fs R) →
    ∃ A' P', Scoped s Φ A' P' R
  | [], _, A, P, h => ⟨A, P, h⟩
  | f :: fs, R, A, P, h => by
    obtain ⟨A', P', h'⟩ := scoped_sub fs (f.put R) A P h
    cases f <;> simp only [Frame.put, Scoped] at h'
    · obtain ⟨_, _, _, h, _⟩ := h'; exact ⟨_, _, h⟩
    · obtain ⟨_, _, _, _, h, _⟩ := h'; exact ⟨_, _, h⟩
    · obtain ⟨_, _, _, _, h, _⟩ := h'; exact ⟨_, _, h⟩

theorem frame_jumps {s : Conv} {Φ : Nat → Nat → Nat → Nat → Prop} {f : Frame} {fs : List Frame} {R : Reg} {A P : Nat → Prop}
    (h : Scoped s Φ A P (plug (f :: fs) R)) : ∃ c, Jumps s f.block c := by
  obtain ⟨A', P', h'⟩ := scoped_sub fs (f.put R) A P h
  cases f <;> simp only [Frame.put, Scoped] at h' <;> obtain ⟨_, c, hj, _⟩ := h' <;> exact ⟨c, hj⟩

theorem check_true {b : Bool} (h : b = true) : Conv.check b = .ok () := by simp [Conv.check, h]

theorem addDescendant_ok {s : Conv} {b d : Nat} (h1 : d ∉ s.desc b) (h2 : b ∉ s.anc d) :
    s.addDescendant b d = .ok { s with desc := updateAt s.desc b (s.desc b ++ [d]), anc := updateAt s.anc d (s.anc d ++ [b]) } := by
  rw [addDescendant, if_neg (by tauto)]

/-- The state after `makeBranch`, field by field. -/
structure Linked (s p s' : Conv) (fs : List Frame) (U c : Nat) : Prop where
  node : s'.node = updateAt p.node p.next ⟨.jump, [c]⟩
  live : s'.live = p.live ++ [p.next]
  next : s'.next = p.next + 1
  parent : s'.parent = updateAt p.parent p.next (some (s.blocks + 2))
  visited : s'.visited = updateAt p.visited p.next true
  ops : s'.ops = updateAt p.ops (s.blocks + 2) [p.next]
  blocks : s'.blocks = s.blocks + 3
  ancU : s'.anc U = [s.blocks, s.blocks + 1]
  ancL : s'.anc s.blocks = [s.blocks + 2]
  ancR : s'.anc (s.blocks + 1) = [s.blocks + 2]
  ancJ : s'.anc (s.blocks + 2) = entryAnc fs
  anc : ∀ b < s.blocks, b ≠ U → s'.anc b = s.anc b
  descL : s'.desc s.blocks = [U]
  descR : s'.desc (s.blocks + 1) = [U]
  descJ : s'.desc (s.blocks + 2) = [s.blocks, s.blocks + 1]
  desc : ∀ b < s.blocks, b ∉ entryAnc fs → s'.desc b = s.desc b
  descF : ∀ b ∈ entryAnc fs, s'.desc b = replaceFirst U (s.blocks + 2) (s.desc b)

theorem makeBranch_linked {s p : Conv} {U c : Nat} {gs ql qr : List Nat} {fs : List Frame} {R : Reg}
    (hp : branches U s.blocks (s.blocks + 1) s.newBlock.newBlock gs = (p, ql, qr)) (hanc : p.anc = s.newBlock.newBlock.anc)
    (hdesc : p.desc = s.newBlock.newBlock.desc) (hblocks : p.blocks = s.blocks + 2) (hU : U < s.blocks)
    (hU' : R.entry = U) (hlay : Lay s.anc s.desc (plug fs R)) (hroot : s.anc (plug fs R).entry = [])
    (hctx : ∀ b ∈ ctxBlocks fs, b < s.blocks ∧ b ≠ U) (hjump : ∀ f fs', fs = f :: fs' → ∃ d, Jumps p f.block d) :
    ∃ s', s.makeBranch U c gs = .ok (s', ql, qr) ∧ Linked s p s' fs U c := by
  have hae : s.anc U = entryAnc fs := by rw [← hU']; exact anc_entry hlay hroot
  have hpa : ∀ b < s.blocks, p.anc b = s.anc b := by
    intro b hb
    rw [hanc]
    simp only [newBlock]
    rw [updateAt_ne _ _ (by omega), updateAt_ne _ _ (by omega)]
  have hpd : ∀ b < s.blocks, p.desc b = s.desc b := by
    intro b hb
    rw [hdesc]
    simp only [newBlock]
    rw [updateAt_ne _ _ (by omega), updateAt_ne _ _ (by omega)]
  have hpaN : ∀ b, b = s.blocks ∨ b = s.blocks + 1 → p.anc b = [] ∧ p.desc b = [] := by
    intro b hb
    rw [hanc, hdesc]
    simp only [newBlock]
    rcases hb with rfl | rfl
    · rw [updateAt_ne _ _ (by omega), updateAt_same, updateAt_ne _ _ (by omega), updateAt_same]; exact ⟨rfl, rfl⟩
    · rw [updateAt_same, updateAt_same]; exact ⟨rfl, rfl⟩
  have hent : ∀ b ∈ entryAnc fs, b < s.blocks ∧ b ≠ U := by
    intro b hb
    cases fs with
    | nil => simp [entryAnc] at hb
    | cons f fs =>
      rw [List.mem_singleton.1 hb]
      exact hctx _ (List.mem_append_left _ f.block_mem)
  have q1 : p.addDescendant s.blocks U = .ok { p with desc := updateAt p.desc s.blocks [U], anc := updateAt p.anc U (entryAnc fs ++ [s.blocks]) } := by
    rw [addDescendant_ok (by rw [(hpaN _ (.inl rfl)).2]; simp) (by rw [hpa U hU, hae]; intro h; have := (hent _ h).1; omega),
      (hpaN _ (.inl rfl)).2, hpa U hU, hae]; rfl
  generalize hs1 : ({ p with desc := updateAt p.desc s.blocks [U], anc := updateAt p.anc U (entryAnc fs ++ [s.blocks]) } : Conv) = s1 at q1
  have d1 : s1.desc (s.blocks + 1) = [] := by rw [← hs1]; simp only; rw [updateAt_ne _ _ (by omega)]; exact (hpaN _ (.inr rfl)).2
  have a1 : s1.anc U = entryAnc fs ++ [s.blocks] := by rw [← hs1]; simp only; rw [updateAt_same]
  have q2 : s1.addDescendant (s.blocks + 1) U = .ok { s1 with desc := updateAt s1.desc (s.blocks + 1) [U],
                                                                 anc := updateAt s1.anc U (entryAnc fs ++ [s.blocks] ++ [s.blocks + 1]) } := by
    rw [addDescendant_ok (by rw [d1]; simp) (by rw [a1]; intro h; rcases List.mem_append.1 h with h | h; (have := (hent _ h).1; omega); simp at h),
      d1, a1]; rfl
  generalize hs2 : ({ s1 with desc := updateAt s1.desc (s.blocks + 1) [U], anc := updateAt s1.anc U (entryAnc fs ++ [s.blocks] ++ [s.blocks + 1]) } : Conv) = s2 at q2
  have b2 : s2.blocks = s.blocks + 2 := by rw [← hs2, ← hs1]; exact hblocks
  generalize hs3 : (s2.newBlock.create (s.blocks + 2) .jump [c]).visit s2.next = s3
  have e3 : s3.desc = updateAt s2.desc (s.blocks + 2) [] ∧ s3.anc = updateAt s2.anc (s.blocks + 2) [] := by
    rw [← hs3]; simp only [newBlock, create, visit, b2, and_self]
  have a3 : s3.anc s.blocks = [] := by
    rw [e3.2, updateAt_ne _ _ (by omega), ← hs2]; simp only
    rw [updateAt_ne _ _ (by omega), ← hs1]; simp only
    rw [updateAt_ne _ _ (by omega)]; exact (hpaN _ (.inl rfl)).1
  have a3' : s3.anc (s.blocks + 1) = [] := by
    rw [e3.2, updateAt_ne _ _ (by omega), ← hs2]; simp only
    rw [updateAt_ne _ _ (by omega), ← hs1]; simp only
    rw [updateAt_ne _ _ (by omega)]; exact (hpaN _ (.inr rfl)).1
  have d3 : s3.desc (s.blocks + 2) = [] := by rw [e3.1, updateAt_same]
  have q4 : s3.addDescendant (s.blocks + 2) s.blocks = .ok { s3 with desc := updateAt s3.desc (s.blocks + 2) [s.blocks],
                                                                      anc := updateAt s3.anc s.blocks [s.blocks + 2] } := by
    rw [addDescendant_ok (by rw [d3]; simp) (by rw [a3]; simp), d3, a3]; rfl
  generalize hs4 : ({ s3 with desc := updateAt s3.desc (s.blocks + 2) [s.blocks], anc := updateAt s3.anc s.blocks [s.blocks + 2] } : Conv) = s4 at q4
  have d4 : s4.desc (s.blocks + 2) = [s.blocks] := by rw [← hs4]; simp only; rw [updateAt_same]
  have a4 : s4.anc (s.blocks + 1) = [] := by rw [← hs4]; simp only; rw [updateAt_ne _ _ (by omega)]; exact a3'
  have q5 : s4.addDescendant (s.blocks + 2) (s.blocks + 1) = .ok { s4 with desc := updateAt s4.desc (s.blocks + 2) [s.blocks, s.blocks + 1],
                                                                           anc := updateAt s4.anc (s.blocks + 1) [s.blocks + 2] } := by
    rw [addDescendant_ok (by rw [d4]; simp) (by rw [a4]; simp), d4, a4]; rfl
  generalize hs5 : ({ s4 with desc := updateAt s4.desc (s.blocks + 2) [s.blocks, s.blocks + 1], anc := updateAt s4.anc (s.blocks + 1) [s.blocks + 2] } : Conv) = s5 at q5
  -- all fields of s5
  have f5n : s5.node = updateAt p.node p.next ⟨.jump, [c]⟩ := by rw [← hs5, ← hs4, ← hs3, ← hs2, ← hs1]; rfl
  have f5l : s5.live = p.live ++ [p.next] := by rw [← hs5, ← hs4, ← hs3, ← hs2, ← hs1]; rfl
  have f5x : s5.next = p.next + 1 := by rw [← hs5, ← hs4, ← hs3, ← hs2, ← hs1]; rfl
  have f5p : s5.parent = updateAt p.parent p.next (some (s.blocks + 2)) := by rw [← hs5, ← hs4, ← hs3, ← hs2, ← hs1]; rfl
  have f5v : s5.visited = updateAt p.visited p.next true := by rw [← hs5, ← hs4, ← hs3, ← hs2, ← hs1]; rfl
  have f5o : s5.ops = updateAt p.ops (s.blocks + 2) [p.next] := by
    have : s3.ops = updateAt p.ops (s.blocks + 2) [p.next] := by
      rw [← hs3]
      simp only [newBlock, create, visit, b2]
      rw [← hs2, ← hs1]
      funext b
      by_cases hb : b = s.blocks + 2
      · subst hb; simp
      · simp [updateAt_ne _ _ hb]
    rw [← hs5, ← hs4]; exact this
  have f5b : s5.blocks = s.blocks + 3 := by
    have : s3.blocks = s.blocks + 3 := by rw [← hs3]; simp only [newBlock, create, visit, b2]
    rw [← hs5, ← hs4]; exact this
  have f5a : ∀ b, b < s.blocks → b ≠ U → s5.anc b = s.anc b := by
    intro b hb hbU
    rw [← hs5]; simp only
    rw [updateAt_ne _ _ (by omega), ← hs4]; simp only
    rw [updateAt_ne _ _ (by omega), e3.2, updateAt_ne _ _ (by omega), ← hs2]; simp only
    rw [updateAt_ne _ _ hbU, ← hs1]; simp only
    rw [updateAt_ne _ _ hbU]; exact hpa b hb
  have f5aU : s5.anc U = entryAnc fs ++ [s.blocks] ++ [s.blocks + 1] := by
    rw [← hs5]; simp only
    rw [updateAt_ne _ _ (by omega), ← hs4]; simp only
    rw [updateAt_ne _ _ (by omega), e3.2, updateAt_ne _ _ (by omega), ← hs2]; simp only
    rw [updateAt_same]
  have f5aL : s5.anc s.blocks = [s.blocks + 2] := by
    rw [← hs5]; simp only
    rw [updateAt_ne _ _ (by omega), ← hs4]; simp only
    rw [updateAt_same]
  have f5aR : s5.anc (s.blocks + 1) = [s.blocks + 2] := by
    rw [← hs5]; simp only
    rw [updateAt_same]
  have f5aJ : s5.anc (s.blocks + 2) = [] := by
    rw [← hs5]; simp only
    rw [updateAt_ne _ _ (by omega), ← hs4]; simp only
    rw [updateAt_ne _ _ (by omega), e3.2, updateAt_same]
  have f5d : ∀ b, b < s.blocks → s5.desc b = s.desc b := by
    intro b hb
    rw [← hs5]; simp only
    rw [updateAt_ne _ _ (by omega), ← hs4]; simp only
    rw [updateAt_ne _ _ (by omega), e3.1, updateAt_ne _ _ (by omega), ← hs2]; simp only
    rw [updateAt_ne _ _ (by omega), ← hs1]; simp only
    rw [updateAt_ne _ _ (by omega)]; exact hpd b hb
  have f5dL : s5.desc s.blocks = [U] := by
    rw [← hs5]; simp only
    rw [updateAt_ne _ _ (by omega), ← hs4]; simp only
    rw [updateAt_ne _ _ (by omega), e3.1, updateAt_ne _ _ (by omega), ← hs2]; simp only
    rw [updateAt_ne _ _ (by omega), ← hs1]; simp only
    rw [updateAt_same]
  have f5dR : s5.desc (s.blocks + 1) = [U] := by
    rw [← hs5]; simp only
    rw [updateAt_ne _ _ (by omega), ← hs4]; simp only
    rw [updateAt_ne _ _ (by omega), e3.1, updateAt_ne _ _ (by omega), ← hs2]; simp only
    rw [updateAt_same]
  have f5dJ : s5.desc (s.blocks + 2) = [s.blocks, s.blocks + 1] := by
    rw [← hs5]; simp only
    rw [updateAt_same]
  have hprev : p.anc U = entryAnc fs := by rw [hpa U hU, hae]
  have hrun : ∀ s6, redirect U (s.blocks + 2) s5 (entryAnc fs) = .ok s6 → s.makeBranch U c gs = .ok (s6, ql, qr) := by
    intro s6 h6
    unfold makeBranch
    simp only [hp, hprev]
    rw [q1]
    change (s1.addDescendant (s.blocks + 1) U >>= _) = _
    rw [q2]
    change (((s2.newBlock.create (s.blocks + 2) .jump [c]).visit s2.next).addDescendant (s.blocks + 2) s.blocks >>= _) = _
    rw [hs3, q4]
    change (s4.addDescendant (s.blocks + 2) (s.blocks + 1) >>= _) = _
    rw [q5]
    change (redirect U (s.blocks + 2) s5 (entryAnc fs) >>= _) = _
    rw [h6]
    rfl
  cases fs with
  | nil =>
    refine ⟨s5, hrun s5 rfl, f5n, f5l, f5x, f5p, f5v, f5o, f5b, ?_, f5aL, f5aR, ?_, f5a, f5dL, f5dR, f5dJ, fun b hb _ => f5d b hb, ?_⟩
    · rw [f5aU]; rfl
    · rw [f5aJ]; rfl
    · intro b hb; simp [entryAnc] at hb
  | cons f fs =>
    have hfb : f.block < s.blocks ∧ f.block ≠ U := hent _ (by simp [entryAnc])
    obtain ⟨d, u, hu1, hu2⟩ := hjump f fs rfl
    have ho : s5.ops f.block = p.ops f.block := by rw [f5o, updateAt_ne _ _ (by omega)]
    have hfd := frame_desc (lay_plug (fs := fs) (R := f.put R) hlay)
    rw [hU'] at hfd
    have hlast : (s5.ops f.block).getLast? = some u := by rw [ho]; exact hu1
    have hne : s5.ops f.block ≠ [] := by intro h; rw [h] at hlast; cases hlast
    have hun : u ≠ p.next → (s5.node u).op = .jump := by
      intro h
      rw [f5n, updateAt_ne _ _ h, hu2]
    have hjump5 : (s5.node u).op = .jump := by
      by_cases h : u = p.next
      · rw [f5n, h, updateAt_same]
      · exact hun h
    have hred : s5.replaceDescendant f.block U (s.blocks + 2) =
        .ok { s5 with anc := updateAt (updateAt s5.anc U ((s5.anc U).erase f.block)) (s.blocks + 2) (s5.anc (s.blocks + 2) ++ [f.block]),
                      desc := updateAt s5.desc f.block (replaceFirst U (s.blocks + 2) (s5.desc f.block)) } := by
      unfold replaceDescendant
      rw [if_neg]
      rintro (h | ⟨_, h⟩ | h | h | h)
      · omega
      · have : s5.endsInJump f.block = true := by simp [endsInJump, hlast, hjump5]
        rw [if_pos this, f5d _ hfb.1] at h
        exact h hfd.2
      · apply h; rw [f5aU]; simp [entryAnc]
      · rw [f5aJ] at h; simp at h
      · apply h; rw [f5d _ hfb.1]; exact hfd.1
    refine ⟨{ s5 with anc := updateAt (updateAt s5.anc U ((s5.anc U).erase f.block)) (s.blocks + 2) (s5.anc (s.blocks + 2) ++ [f.block]),
                      desc := updateAt s5.desc f.block (replaceFirst U (s.blocks + 2) (s5.desc f.block)) },
      hrun _ ?_, f5n, f5l, f5x, f5p, f5v, f5o, f5b, ?_, ?_, ?_, ?_, ?_, ?_, ?_, ?_, ?_, ?_⟩
    · unfold redirect
      simp only [entryAnc]
      rw [check_true]
      · change (s5.replaceDescendant f.block U (s.blocks + 2) >>= _) = _
        rw [hred]
        rfl
      · have h1 : s5.desc f.block ≠ [] := by rw [f5d _ hfb.1]; exact List.ne_nil_of_mem hfd.1
        simp [hne, h1]
    · simp only
      rw [updateAt_ne _ _ (by omega), updateAt_same, f5aU]
      simp [entryAnc]
    · simp only
      rw [updateAt_ne _ _ (by omega), updateAt_ne _ _ (by omega), f5aL]
    · simp only
      rw [updateAt_ne _ _ (by omega), updateAt_ne _ _ (by omega), f5aR]
    · simp only
      rw [updateAt_same, f5aJ]; rfl
    · intro b hb hbU
      simp only
      rw [updateAt_ne _ _ (by omega), updateAt_ne _ _ hbU, f5a b hb hbU]
    · simp only
      rw [updateAt_ne _ _ (by omega), f5dL]
    · simp only
      rw [updateAt_ne _ _ (by omega), f5dR]
    · simp only
      rw [updateAt_ne _ _ (by omega), f5dJ]
    · intro b hb hbf
      simp only
      rw [updateAt_ne _ _ (by simpa [entryAnc] using hbf), f5d b hb]
    · intro b hb
      rw [List.mem_singleton.1 hb]
      simp only
      rw [updateAt_same, f5d _ hfb.1]

end Wf.Gen
