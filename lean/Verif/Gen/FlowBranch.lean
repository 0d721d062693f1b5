import Verif.Gen.FlowDrain

/-!
# Turning conditionals into a branch (used in proofs)
-/

namespace Wf.Gen

open Conv

/-- What `branches` does. -/
structure Branched (t t' : Conv) (U L R c : Nat) (gs ql qr : List Nat) : Prop where
  next : t.next ≤ t'.next
  live : ∀ v, v ∈ t'.live ↔ v ∈ t.live ∨ (t.next ≤ v ∧ v < t'.next)
  old : ∀ v, (v < t.next ∨ t'.next ≤ v) → v ∉ gs → t'.node v = t.node v ∧ t'.parent v = t.parent v ∧ t'.visited v = t.visited v
  phi : ∀ v ∈ gs, t'.parent v = some U ∧ t'.visited v = true ∧ ∃ x y a b, t'.node v = ⟨.phi, [x, y]⟩ ∧ t'.node x = ⟨.copy, [a]⟩ ∧
    t'.node y = ⟨.copy, [b]⟩ ∧ t.node v = ⟨.cond, [c, a, b]⟩ ∧ x ∈ t'.ops L ∧ y ∈ t'.ops R ∧ t.next ≤ x ∧ x < t'.next ∧ t.next ≤ y ∧ y < t'.next
  new : ∀ v, t.next ≤ v → v < t'.next → t'.visited v = true ∧ (t'.parent v = some L ∨ t'.parent v = some R) ∧
    ∃ w ∈ gs, ∃ a ∈ (t.node w).args, t'.node v = ⟨.copy, [a]⟩
  opsU : t'.ops U = gs.reverse ++ t.ops U
  opsNew : ∀ b, b = L ∨ b = R → ∀ v, v ∈ t'.ops b ↔ v ∈ t.ops b ∨ (t.next ≤ v ∧ v < t'.next ∧ t'.parent v = some b)
  nodup : ∀ b, b = L ∨ b = R → (t.ops b).Nodup → (∀ v ∈ t.ops b, v < t.next) → (t'.ops b).Nodup
  opsOther : ∀ b, b ≠ U → b ≠ L → b ≠ R → t'.ops b = t.ops b
  anc : t'.anc = t.anc
  desc : t'.desc = t.desc
  blocks : t'.blocks = t.blocks
  all : ∀ a, t.allVisited a = true → t'.allVisited a = true
  left : ∀ q ∈ ql, t'.allVisited q = true ∧ ∃ x ∈ t'.ops L, t'.node x = ⟨.copy, [q]⟩ ∧ t.next ≤ x ∧ x < t'.next
  right : ∀ q ∈ qr, t'.allVisited q = true ∧ ∃ x ∈ t'.ops R, t'.node x = ⟨.copy, [q]⟩ ∧ t.next ≤ x ∧ x < t'.next
  complete : ∀ a, t'.visited a = false → t'.allVisited a = true → t.allVisited a = true ∨ a ∈ ql ∨ a ∈ qr ∨ a = c
  mine : ∀ v, t.next ≤ v → v < t'.next → ∃ w ∈ gs, v ∈ (t'.node w).args

variable {t t' t'' : Conv} {U L R c : Nat}

theorem Branched.nil : Branched t t U L R c [] [] [] where
  next := le_rfl
  live v := by simp
  old v _ _ := ⟨rfl, rfl, rfl⟩
  phi v h := by simp at h
  new v h1 h2 := by omega
  opsU := rfl
  opsNew b _ v := by simp; omega
  nodup b _ h _ := h
  opsOther b _ _ _ := rfl
  anc := rfl
  desc := rfl
  blocks := rfl
  all a h := h
  left q h := by simp at h
  right q h := by simp at h
  complete a _ h := .inl h
  mine v h1 h2 := by omega

theorem Branched.trans {gs gs' ql qr ql' qr' : List Nat} (h : Branched t t' U L R c gs ql qr) (h' : Branched t' t'' U L R c gs' ql' qr')
    (hlt : ∀ v ∈ gs, v < t.next) (hlt' : ∀ v ∈ gs', v < t.next) (hd : ∀ v ∈ gs, v ∉ gs') (hUL : U ≠ L) (hUR : U ≠ R) :
    Branched t t'' U L R c (gs ++ gs') (ql ++ ql') (qr ++ qr') := by
  have hn := h.next
  have hn' := h'.next
  -- values made by the first part are left alone by the second
  have keep : ∀ v, t.next ≤ v → v < t'.next → t''.node v = t'.node v ∧ t''.parent v = t'.parent v ∧ t''.visited v = t'.visited v := by
    intro v h1 h2
    refine h'.old v (.inl h2) fun hm => ?_
    have := hlt' v hm
    omega
  have keepg : ∀ v ∈ gs, t''.node v = t'.node v ∧ t''.parent v = t'.parent v ∧ t''.visited v = t'.visited v := by
    intro v hv
    exact h'.old v (.inl (by have := hlt v hv; omega)) (hd v hv)
  have tnode : ∀ v ∈ gs', t'.node v = t.node v := by
    intro v hv
    exact (h.old v (.inl (hlt' v hv)) fun hm => hd v hm hv).1
  have opsMono : ∀ b, b = L ∨ b = R → ∀ v ∈ t'.ops b, v ∈ t''.ops b := fun b hb v hv => (h'.opsNew b hb v).2 (.inl hv)
  refine ⟨hn.trans hn', ?_, ?_, ?_, ?_, ?_, ?_, ?_, ?_, h'.anc.trans h.anc, h'.desc.trans h.desc, h'.blocks.trans h.blocks, ?_, ?_, ?_, ?_, ?_⟩
  · intro v
    rw [h'.live, h.live]
    constructor
    · rintro ((hv | hv) | hv)
      · exact .inl hv
      · exact .inr ⟨hv.1, by omega⟩
      · exact .inr ⟨by omega, hv.2⟩
    · rintro (hv | hv)
      · exact .inl (.inl hv)
      · by_cases h1 : v < t'.next
        · exact .inl (.inr ⟨hv.1, h1⟩)
        · exact .inr ⟨by omega, hv.2⟩
  · intro v hv hm
    rw [List.mem_append, not_or] at hm
    obtain ⟨a1, a2, a3⟩ := h.old v (by omega) hm.1
    obtain ⟨b1, b2, b3⟩ := h'.old v (by omega) hm.2
    exact ⟨b1.trans a1, b2.trans a2, b3.trans a3⟩
  · intro v hv
    rcases List.mem_append.1 hv with hv | hv
    · obtain ⟨p1, p2, x, y, a, b, p3, p4, p5, p6, p7, p8, p9, p10, p11, p12⟩ := h.phi v hv
      obtain ⟨k1, k2, k3⟩ := keepg v hv
      refine ⟨k2.trans p1, k3.trans p2, x, y, a, b, k1.trans p3, (keep x p9 p10).1.trans p4, (keep y p11 p12).1.trans p5, p6,
        opsMono L (.inl rfl) _ p7, opsMono R (.inr rfl) _ p8, p9, by omega, p11, by omega⟩
    · obtain ⟨p1, p2, x, y, a, b, p3, p4, p5, p6, p7, p8, p9, p10, p11, p12⟩ := h'.phi v hv
      exact ⟨p1, p2, x, y, a, b, p3, p4, p5, (tnode v hv).symm.trans p6, p7, p8, by omega, p10, by omega, p12⟩
  · intro v h1 h2
    by_cases h3 : v < t'.next
    · obtain ⟨p1, p2, w, hw, a, ha, p3⟩ := h.new v h1 h3
      obtain ⟨k1, k2, k3⟩ := keep v h1 h3
      refine ⟨k3.trans p1, ?_, w, List.mem_append_left _ hw, a, ha, k1.trans p3⟩
      rw [k2]; exact p2
    · obtain ⟨p1, p2, w, hw, a, ha, p3⟩ := h'.new v (by omega) h2
      exact ⟨p1, p2, w, List.mem_append_right _ hw, a, by rw [← tnode w hw]; exact ha, p3⟩
  · rw [h'.opsU, h.opsU, List.reverse_append, List.append_assoc]
  · intro b hb v
    rw [h'.opsNew b hb, h.opsNew b hb]
    constructor
    · rintro ((hv | ⟨h1, h2, h3⟩) | ⟨h1, h2, h3⟩)
      · exact .inl hv
      · exact .inr ⟨h1, by omega, by rw [(keep v h1 h2).2.1]; exact h3⟩
      · exact .inr ⟨by omega, h2, h3⟩
    · rintro (hv | ⟨h1, h2, h3⟩)
      · exact .inl (.inl hv)
      · by_cases h4 : v < t'.next
        · exact .inl (.inr ⟨h1, h4, by rw [← (keep v h1 h4).2.1]; exact h3⟩)
        · exact .inr ⟨by omega, h2, h3⟩
  · intro b hb hnd hl
    refine h'.nodup b hb (h.nodup b hb hnd hl) fun v hv => ?_
    rw [h.opsNew b hb] at hv
    rcases hv with hv | hv
    · have := hl v hv; omega
    · exact hv.2.1
  · intro b h1 h2 h3
    rw [h'.opsOther b h1 h2 h3, h.opsOther b h1 h2 h3]
  · intro a ha
    exact h'.all a (h.all a ha)
  · intro q hq
    rcases List.mem_append.1 hq with hq | hq
    · obtain ⟨p1, x, p2, p3, p4, p5⟩ := h.left q hq
      exact ⟨h'.all q p1, x, opsMono L (.inl rfl) x p2, (keep x p4 p5).1.trans p3, p4, by omega⟩
    · obtain ⟨p1, x, p2, p3, p4, p5⟩ := h'.left q hq
      exact ⟨p1, x, p2, p3, by omega, p5⟩
  · intro q hq
    rcases List.mem_append.1 hq with hq | hq
    · obtain ⟨p1, x, p2, p3, p4, p5⟩ := h.right q hq
      exact ⟨h'.all q p1, x, opsMono R (.inr rfl) x p2, (keep x p4 p5).1.trans p3, p4, by omega⟩
    · obtain ⟨p1, x, p2, p3, p4, p5⟩ := h'.right q hq
      exact ⟨p1, x, p2, p3, by omega, p5⟩
  · intro a hva hall
    rcases h'.complete a hva hall with h1 | h1 | h1 | h1
    · have hva' : t'.visited a = false := by
        by_cases hm : a ∈ gs'
        · rw [(h'.phi a hm).2.1] at hva; cases hva
        · by_cases hr : t'.next ≤ a ∧ a < t''.next
          · rw [(h'.new a hr.1 hr.2).1] at hva; cases hva
          · rw [(h'.old a (by omega) hm).2.2] at hva
            exact hva
      rcases h.complete a hva' h1 with h2 | h2 | h2 | h2
      · exact .inl h2
      · exact .inr (.inl (List.mem_append_left _ h2))
      · exact .inr (.inr (.inl (List.mem_append_left _ h2)))
      · exact .inr (.inr (.inr h2))
    · exact .inr (.inl (List.mem_append_right _ h1))
    · exact .inr (.inr (.inl (List.mem_append_right _ h1)))
    · exact .inr (.inr (.inr h1))
  · intro v h1 h2
    by_cases h3 : v < t'.next
    · obtain ⟨w, hw, ha⟩ := h.mine v h1 h3
      exact ⟨w, List.mem_append_left _ hw, by rw [(keepg w hw).1]; exact ha⟩
    · obtain ⟨w, hw, ha⟩ := h'.mine v (by omega) h2
      exact ⟨w, List.mem_append_right _ hw, ha⟩

theorem branched_one {v a b : Nat} (hv : t.node v = ⟨.cond, [c, a, b]⟩) (hlt : v < t.next) (hlive : ∀ u ∈ t.live, u < t.next)
    (hargs : ∀ x ∈ [c, a, b], x < t.next) (hnv : t.visited v = false) (hvl : v ∈ t.live) (hvop : ∀ d, v ∉ t.ops d) (hopl : ∀ d, ∀ u ∈ t.ops d, u < t.next)
    (hUL : U ≠ L) (hUR : U ≠ R) (hLR : L ≠ R) :
    Branched t (branch U L R t v).1 U L R c [v] (branch U L R t v).2.1 (branch U L R t v).2.2 := by
  have e0 : (t.node v).args.getD 1 0 = a := by rw [hv]; rfl
  have e1 : (t.node v).args.getD 2 0 = b := by rw [hv]; rfl
  have c1 : t.next ≠ v := by omega
  have c2 : t.next + 1 ≠ v := by omega
  have mk1 : ∀ x : Nat, mkNode .copy [x] = ⟨.copy, [x]⟩ := fun _ => rfl
  have mk2 : ∀ x y : Nat, mkNode .phi [x, y] = ⟨.phi, [x, y]⟩ := fun _ _ => rfl
  have hnode : (branch U L R t v).1.node = updateAt (updateAt (updateAt t.node t.next ⟨.copy, [a]⟩) (t.next + 1) ⟨.copy, [b]⟩) v ⟨.phi, [t.next, t.next + 1]⟩ := by
    simp only [branch, create, Conv.place, visit, e0, e1, mk1, mk2]
  have hlive' : (branch U L R t v).1.live = t.live ++ [t.next] ++ [t.next + 1] := rfl
  have hnext' : (branch U L R t v).1.next = t.next + 2 := rfl
  have hparent : (branch U L R t v).1.parent = updateAt (updateAt (updateAt t.parent t.next (some L)) (t.next + 1) (some R)) v (some U) := rfl
  have hvisited : (branch U L R t v).1.visited = updateAt (updateAt (updateAt t.visited v true) t.next true) (t.next + 1) true := rfl
  have hops : (branch U L R t v).1.ops = updateAt (updateAt (updateAt t.ops L (t.ops L ++ [t.next])) R (updateAt t.ops L (t.ops L ++ [t.next]) R ++ [t.next + 1])) U
      (v :: updateAt (updateAt t.ops L (t.ops L ++ [t.next])) R (updateAt t.ops L (t.ops L ++ [t.next]) R ++ [t.next + 1]) U) := rfl
  have hql : (branch U L R t v).2.1 = (branch U L R t v).1.ready t.next := rfl
  have hqr : (branch U L R t v).2.2 = (branch U L R t v).1.ready (t.next + 1) := rfl
  have hanc : (branch U L R t v).1.anc = t.anc := rfl
  have hdesc : (branch U L R t v).1.desc = t.desc := rfl
  have hblocks : (branch U L R t v).1.blocks = t.blocks := rfl
  generalize (branch U L R t v).1 = t' at *
  have nv : t'.node v = ⟨.phi, [t.next, t.next + 1]⟩ := by rw [hnode, updateAt_same]
  have nx : t'.node t.next = ⟨.copy, [a]⟩ := by
    rw [hnode, updateAt_ne _ _ c1, updateAt_ne _ _ (by omega), updateAt_same]
  have ny : t'.node (t.next + 1) = ⟨.copy, [b]⟩ := by
    rw [hnode, updateAt_ne _ _ c2, updateAt_same]
  have nother : ∀ u, u ≠ v → u ≠ t.next → u ≠ t.next + 1 → t'.node u = t.node u := by
    intro u h1 h2 h3
    rw [hnode, updateAt_ne _ _ h1, updateAt_ne _ _ h3, updateAt_ne _ _ h2]
  have vv : t'.visited v = true := by rw [hvisited, updateAt_ne _ _ (Ne.symm c2), updateAt_ne _ _ (Ne.symm c1), updateAt_same]
  have vx : t'.visited t.next = true := by rw [hvisited, updateAt_ne _ _ (by omega), updateAt_same]
  have vy : t'.visited (t.next + 1) = true := by rw [hvisited, updateAt_same]
  have vother : ∀ u, u ≠ v → u ≠ t.next → u ≠ t.next + 1 → t'.visited u = t.visited u := by
    intro u h1 h2 h3
    rw [hvisited, updateAt_ne _ _ h3, updateAt_ne _ _ h2, updateAt_ne _ _ h1]
  have pv : t'.parent v = some U := by rw [hparent, updateAt_same]
  have px : t'.parent t.next = some L := by rw [hparent, updateAt_ne _ _ c1, updateAt_ne _ _ (by omega), updateAt_same]
  have py : t'.parent (t.next + 1) = some R := by rw [hparent, updateAt_ne _ _ c2, updateAt_same]
  have pother : ∀ u, u ≠ v → u ≠ t.next → u ≠ t.next + 1 → t'.parent u = t.parent u := by
    intro u h1 h2 h3
    rw [hparent, updateAt_ne _ _ h1, updateAt_ne _ _ h3, updateAt_ne _ _ h2]
  have oU : t'.ops U = v :: t.ops U := by
    rw [hops, updateAt_same, updateAt_ne _ _ hUR, updateAt_ne _ _ hUL]
  have oL : t'.ops L = t.ops L ++ [t.next] := by
    rw [hops, updateAt_ne _ _ hUL.symm, updateAt_ne _ _ hLR, updateAt_same]
  have oR : t'.ops R = t.ops R ++ [t.next + 1] := by
    rw [hops, updateAt_ne _ _ hUR.symm, updateAt_same, updateAt_ne _ _ hLR.symm]
  have oother : ∀ d, d ≠ U → d ≠ L → d ≠ R → t'.ops d = t.ops d := by
    intro d h1 h2 h3
    rw [hops, updateAt_ne _ _ h1, updateAt_ne _ _ h3, updateAt_ne _ _ h2]
  have lmem : ∀ u, u ∈ t'.live ↔ u ∈ t.live ∨ (t.next ≤ u ∧ u < t.next + 2) := by
    intro u
    rw [hlive']
    simp only [List.mem_append, List.mem_singleton]
    constructor
    · rintro ((h | h) | h)
      · exact .inl h
      · exact .inr (by omega)
      · exact .inr (by omega)
    · rintro (h | h)
      · exact .inl (.inl h)
      · by_cases h2 : u = t.next
        · exact .inl (.inr h2)
        · exact .inr (by omega)
  have hall : ∀ q, t.allVisited q = true → t'.allVisited q = true := by
    intro q hq
    rw [allVisited_iff] at hq ⊢
    intro u hu hqu
    by_cases h1 : u = v
    · rw [h1]; exact vv
    by_cases h2 : u = t.next
    · rw [h2]; exact vx
    by_cases h3 : u = t.next + 1
    · rw [h3]; exact vy
    rw [vother u h1 h2 h3]
    rw [nother u h1 h2 h3] at hqu
    refine hq u ?_ hqu
    rcases (lmem u).1 hu with h | h
    · exact h
    · omega
  have hready : ∀ x q, q ∈ t'.ready x → q ∈ (t'.node x).args ∧ t'.allVisited q = true := by
    intro x q hq
    simp only [ready, List.mem_filter, Bool.and_eq_true] at hq
    exact ⟨hq.1, hq.2.2⟩
  refine ⟨by omega, ?_, ?_, ?_, ?_, ?_, ?_, ?_, ?_, hanc, hdesc, hblocks, hall, ?_, ?_, ?_, ?_⟩
  · intro u; rw [lmem, hnext']
  · intro u hu hm
    rw [List.mem_singleton] at hm
    have h2 : u ≠ t.next := by omega
    have h3 : u ≠ t.next + 1 := by omega
    exact ⟨nother u hm h2 h3, pother u hm h2 h3, vother u hm h2 h3⟩
  · intro u hu
    rw [List.mem_singleton.1 hu]
    refine ⟨pv, vv, t.next, t.next + 1, a, b, nv, nx, ny, hv, ?_, ?_, le_rfl, by omega, by omega, by omega⟩
    · rw [oL]; simp
    · rw [oR]; simp
  · intro u h1 h2
    by_cases h3 : u = t.next
    · rw [h3]
      exact ⟨vx, .inl px, v, by simp, a, by rw [hv]; simp, nx⟩
    · have h4 : u = t.next + 1 := by omega
      rw [h4]
      exact ⟨vy, .inr py, v, by simp, b, by rw [hv]; simp, ny⟩
  · rw [oU]; rfl
  · rintro d (hd | hd) u
    · rw [hd, oL]
      simp only [List.mem_append, List.mem_singleton, hnext']
      constructor
      · rintro (h | h)
        · exact .inl h
        · rw [h]; exact .inr ⟨le_rfl, by omega, px⟩
      · rintro (h | ⟨h1, h2, h3⟩)
        · exact .inl h
        · right
          by_contra h4
          have h5 : u = t.next + 1 := by omega
          rw [h5, py] at h3
          exact hLR (Option.some.inj h3).symm
    · rw [hd, oR]
      simp only [List.mem_append, List.mem_singleton, hnext']
      constructor
      · rintro (h | h)
        · exact .inl h
        · rw [h]; exact .inr ⟨by omega, by omega, py⟩
      · rintro (h | ⟨h1, h2, h3⟩)
        · exact .inl h
        · right
          by_contra h4
          have h5 : u = t.next := by omega
          rw [h5, px] at h3
          exact hLR (Option.some.inj h3)
  · rintro d (hd | hd) hnd hl
    · rw [hd] at hnd hl ⊢
      rw [oL, List.nodup_append]
      refine ⟨hnd, by simp, ?_⟩
      rintro x hx y hy rfl
      have := hl x hx
      rw [List.mem_singleton] at hy
      omega
    · rw [hd] at hnd hl ⊢
      rw [oR, List.nodup_append]
      refine ⟨hnd, by simp, ?_⟩
      rintro x hx y hy rfl
      have := hl x hx
      rw [List.mem_singleton] at hy
      omega
  · exact oother
  · intro q hq
    rw [hql] at hq
    obtain ⟨h1, h2⟩ := hready _ _ hq
    rw [nx] at h1
    simp only [List.mem_singleton] at h1
    refine ⟨h2, t.next, by rw [oL]; simp, by rw [nx, h1], le_rfl, by omega⟩
  · intro q hq
    rw [hqr] at hq
    obtain ⟨h1, h2⟩ := hready _ _ hq
    rw [ny] at h1
    simp only [List.mem_singleton] at h1
    refine ⟨h2, t.next + 1, by rw [oR]; simp, by rw [ny, h1], by omega, by omega⟩
  · intro q hvq hq
    by_cases ho : t.allVisited q = true
    · exact .inl ho
    · right
      have hmem : q ∈ (t.node v).args := by
        by_contra hna
        apply ho
        rw [allVisited_iff] at hq ⊢
        intro u hu hqu
        have h1 : u ≠ v := by rintro rfl; exact hna hqu
        have h2 : u ≠ t.next := by have := hlive u hu; omega
        have h3 : u ≠ t.next + 1 := by have := hlive u hu; omega
        rw [← vother u h1 h2 h3]
        exact hq u ((lmem u).2 (.inl hu)) (by rw [nother u h1 h2 h3]; exact hqu)
      rw [hv] at hmem
      simp only [List.mem_cons, List.not_mem_nil, or_false] at hmem
      rcases hmem with h | h | h
      · exact .inr (.inr h)
      · left
        rw [hql, ready, List.mem_filter, nx]
        exact ⟨by simp [h], by simp [hvq, hq]⟩
      · right; left
        rw [hqr, ready, List.mem_filter, ny]
        exact ⟨by simp [h], by simp [hvq, hq]⟩
  · intro u h1 h2
    have h3 : u = t.next ∨ u = t.next + 1 := by omega
    exact ⟨v, List.mem_singleton.2 rfl, by rw [nv]; simpa using h3⟩

/-- What must hold before `branches`. -/
structure BranchPre (t : Conv) (c : Nat) (gs : List Nat) : Prop where
  cond : ∀ v ∈ gs, ∃ a b, t.node v = ⟨.cond, [c, a, b]⟩
  mem : ∀ v ∈ gs, v ∈ t.live
  lt : ∀ u ∈ t.live, u < t.next
  closed : ∀ u ∈ t.live, ∀ a ∈ (t.node u).args, a ∈ t.live
  not : ∀ v ∈ gs, t.visited v = false
  free : ∀ v ∈ gs, ∀ d, v ∉ t.ops d
  opl : ∀ d, ∀ u ∈ t.ops d, u < t.next
  nodup : gs.Nodup

theorem branches_ok (hUL : U ≠ L) (hUR : U ≠ R) (hLR : L ≠ R) : ∀ (gs : List Nat) (t : Conv), BranchPre t c gs →
    Branched t (branches U L R t gs).1 U L R c gs (branches U L R t gs).2.1 (branches U L R t gs).2.2
  | [], t, _ => Branched.nil
  | v :: vs, t, h => by
    obtain ⟨a, b, hv⟩ := h.cond v List.mem_cons_self
    have hvl := h.mem v List.mem_cons_self
    have hone := branched_one (U := U) (L := L) (R := R) hv (h.lt v hvl) h.lt (fun x hx => h.lt x (h.closed v hvl x (by rw [hv]; exact hx)))
      (h.not v List.mem_cons_self) hvl (h.free v List.mem_cons_self) h.opl hUL hUR hLR
    have hnd := List.nodup_cons.1 h.nodup
    have hn1 := hone.next
    have hold : ∀ w ∈ vs, (branch U L R t v).1.node w = t.node w ∧ (branch U L R t v).1.parent w = t.parent w ∧
        (branch U L R t v).1.visited w = t.visited w := by
      intro w hw
      refine hone.old w (.inl (h.lt w (h.mem w (List.mem_cons_of_mem _ hw)))) ?_
      rw [List.mem_singleton]
      rintro rfl
      exact hnd.1 hw
    have hpre : BranchPre (branch U L R t v).1 c vs := by
      refine ⟨?_, ?_, ?_, ?_, ?_, ?_, ?_, hnd.2⟩
      · intro w hw
        obtain ⟨a', b', hw'⟩ := h.cond w (List.mem_cons_of_mem _ hw)
        exact ⟨a', b', (hold w hw).1.trans hw'⟩
      · intro w hw
        exact (hone.live w).2 (.inl (h.mem w (List.mem_cons_of_mem _ hw)))
      · intro u hu
        rcases (hone.live u).1 hu with hu | hu
        · have := h.lt u hu; omega
        · exact hu.2
      · intro u hu x hx
        rw [hone.live]
        rcases (hone.live u).1 hu with hu | hu
        · by_cases huv : u = v
          · subst huv
            obtain ⟨_, _, x', y', a', b', e1, _, _, _, _, _, p1, p2, p3, p4⟩ := hone.phi u List.mem_cons_self
            rw [e1] at hx
            simp only [List.mem_cons, List.not_mem_nil, or_false] at hx
            rcases hx with rfl | rfl
            · exact .inr ⟨p1, p2⟩
            · exact .inr ⟨p3, p4⟩
          · rw [(hone.old u (.inl (h.lt u hu)) (by simpa using huv)).1] at hx
            exact .inl (h.closed u hu x hx)
        · obtain ⟨_, _, w, hw, a', ha', e⟩ := hone.new u hu.1 hu.2
          rw [e] at hx
          rw [List.mem_singleton.1 hx]
          rw [List.mem_singleton] at hw
          rw [hw] at ha'
          exact .inl (h.closed v hvl a' ha')
      · intro w hw
        rw [(hold w hw).2.2]
        exact h.not w (List.mem_cons_of_mem _ hw)
      · intro w hw d hm
        have hfree := h.free w (List.mem_cons_of_mem _ hw)
        have hlt := h.lt w (h.mem w (List.mem_cons_of_mem _ hw))
        by_cases hdL : d = L ∨ d = R
        · rw [hone.opsNew d hdL] at hm
          rcases hm with hm | hm
          · exact hfree d hm
          · omega
        · rw [not_or] at hdL
          by_cases hdU : d = U
          · rw [hdU, hone.opsU] at hm
            simp only [List.reverse_cons, List.reverse_nil, List.nil_append, List.cons_append, List.mem_cons] at hm
            rcases hm with rfl | hm
            · exact hnd.1 hw
            · exact hfree U hm
          · rw [hone.opsOther d hdU hdL.1 hdL.2] at hm
            exact hfree d hm
      · intro d u hm
        by_cases hdL : d = L ∨ d = R
        · rw [hone.opsNew d hdL] at hm
          rcases hm with hm | hm
          · have := h.opl d u hm; omega
          · omega
        · rw [not_or] at hdL
          by_cases hdU : d = U
          · rw [hdU, hone.opsU] at hm
            simp only [List.reverse_cons, List.reverse_nil, List.nil_append, List.cons_append, List.mem_cons] at hm
            rcases hm with rfl | hm
            · have := h.lt u hvl; omega
            · have := h.opl U u hm; omega
          · rw [hone.opsOther d hdU hdL.1 hdL.2] at hm
            have := h.opl d u hm; omega
    have ih := branches_ok hUL hUR hLR vs (branch U L R t v).1 hpre
    exact hone.trans ih (by intro w hw; rw [List.mem_singleton.1 hw]; exact h.lt v hvl) (fun w hw => h.lt w (h.mem w (List.mem_cons_of_mem _ hw)))
      (by intro w hw; rw [List.mem_singleton.1 hw]; exact hnd.1) hUL hUR

end Wf.Gen
