import Verif.Gen.FlowMake

/-!
# Making a branch keeps the invariant (used in proofs)
-/

namespace Wf.Gen

open Conv

variable {g : Graph} {usage : Nat → Usage} {ternaries : Bool} {s : Conv}

theorem opsOk_phis {s : Conv} {P : Nat → Prop} : ∀ (l : List Nat) (A : Nat → Prop), (∀ v ∈ l, (s.node v).op = .phi ∧ P v) → OpsOk s P A l
  | [], _, _ => trivial
  | v :: vs, A, h => by
    refine ⟨?_, opsOk_phis vs _ fun u hu => h u (List.mem_cons_of_mem _ hu)⟩
    rw [if_pos (h v List.mem_cons_self).1]
    exact (h v List.mem_cons_self).2

theorem opsOk_plain {s : Conv} {P : Nat → Prop} : ∀ (l : List Nat) (A : Nat → Prop), (∀ v ∈ l, (s.node v).op ≠ .phi ∧ ∀ a ∈ (s.node v).args, A a) →
    OpsOk s P A l
  | [], _, _ => trivial
  | v :: vs, A, h => by
    refine ⟨?_, opsOk_plain vs _ fun u hu => ⟨(h u (List.mem_cons_of_mem _ hu)).1, fun a ha => .inl ((h u (List.mem_cons_of_mem _ hu)).2 a ha)⟩⟩
    rw [if_neg (h v List.mem_cons_self).1]
    exact (h v List.mem_cons_self).2

theorem lay_branch {anc desc anc' desc' : Nat → List Nat} {fs : List Frame} {R : Reg} {L R' J : Nat} (hl : Lay anc desc (plug fs R))
    (hn : (R.blocks ++ ctxBlocks fs).Nodup) (hU : anc' R.entry = [L, R']) (haL : anc' L = [J]) (haR : anc' R' = [J]) (haJ : anc' J = entryAnc fs)
    (ha : ∀ b ∈ R.blocks ++ ctxBlocks fs, b ≠ R.entry → anc' b = anc b) (hdL : desc' L = [R.entry]) (hdR : desc' R' = [R.entry]) (hdJ : desc' J = [L, R'])
    (hd : ∀ b ∈ R.blocks ++ ctxBlocks fs, b ∉ entryAnc fs → desc' b = desc b)
    (hf : ∀ b ∈ entryAnc fs, desc' b = replaceFirst R.entry J (desc b)) : Lay anc' desc' (plug fs (.ite J (.last L) (.last R') R)) := by
  rw [List.nodup_append] at hn
  obtain ⟨hnR, hnC, hdis⟩ := hn
  have hent : ∀ b ∈ entryAnc fs, b ∈ ctxBlocks fs := by
    intro b hb
    cases fs with
    | nil => simp [entryAnc] at hb
    | cons f fs =>
      rw [List.mem_singleton.1 hb]
      exact List.mem_append_left _ f.block_mem
  have hR : Lay anc' desc' R := by
    refine lay_congr_tail R (fun b hb => hd b (List.mem_append_left _ hb) fun hm => hdis b hb b (hent b hm) rfl) (fun b hb => ?_) (lay_plug hl)
    rw [R.blocks_eq] at hnR
    exact ha b (by rw [R.blocks_eq]; simp [hb]) (by rintro rfl; exact (List.nodup_cons.1 hnR).1 hb)
  have hQ : Lay anc' desc' (.ite J (.last L) (.last R') R) := by
    simp only [Lay, Reg.entry, Reg.exit]
    exact ⟨hdJ, haL, haR, hdL, hdR, hU, trivial, trivial, hR⟩
  cases fs with
  | nil => exact hQ
  | cons f fs =>
    have hfm : ∀ b ∈ f.blocks, b ∈ ctxBlocks (f :: fs) := fun b hb => List.mem_append_left _ hb
    have hfm' : ∀ b ∈ ctxBlocks fs, b ∈ ctxBlocks (f :: fs) := fun b hb => List.mem_append_right _ hb
    have hca : ∀ b ∈ ctxBlocks (f :: fs), anc' b = anc b := fun b hb =>
      ha b (List.mem_append_right _ hb) (by rintro rfl; exact hdis _ R.entry_mem _ hb rfl)
    have hcd : ∀ b ∈ ctxBlocks (f :: fs), b ≠ f.block → desc' b = desc b := fun b hb hne =>
      hd b (List.mem_append_right _ hb) (by simpa [entryAnc] using hne)
    have hnC' := List.nodup_append.1 hnC
    have hne : ∀ b ∈ ctxBlocks fs, b ≠ f.block := fun b hb e => hnC'.2.2 f.block f.block_mem b hb e.symm
    have hput : (f.put R).blocks.Nodup := by
      rw [(f.blocks_put R).nodup_iff, List.nodup_append]
      exact ⟨hnR, hnC'.1, fun a ha b hb => hdis a ha b (hfm b hb)⟩
    have hlp : Lay anc desc (f.put R) := lay_plug (fs := fs) hl
    have hx : ∀ b ∈ R.blocks, b ≠ f.block := fun b hb e => hdis b hb f.block (hfm _ f.block_mem) e
    have hQf : Lay anc' desc' (f.put (.ite J (.last L) (.last R') R)) := by
      refine lay_put_change hlp hput hQ rfl (hf _ (by simp [entryAnc])) haJ ?_ ?_
      · exact hd _ (List.mem_append_left _ R.exit_mem) (by simpa [entryAnc] using hx _ R.exit_mem)
      · exact fun b hb => ⟨hca b (hfm b hb), fun h => hcd b (hfm b hb) h⟩
    refine lay_plug_same fs (f.put R) _ hl hQf (by rw [Frame.entry_put, Frame.entry_put]) (exit_put rfl) ?_ ?_ ?_
    · exact fun b hb => ⟨hca b (hfm' b hb), hcd b (hfm' b hb) (hne b hb)⟩
    · rw [Frame.entry_put]; exact hca _ (hfm _ f.block_mem)
    · have hm := f.exit_mem R
      refine hcd _ (hfm _ hm) ?_
      have : ∀ (f : Frame), (f.put R).blocks.Nodup → (f.put R).exit ≠ f.block := by
        intro f hn e
        cases f <;> simp only [Frame.put, Reg.exit, Frame.block, Reg.blocks, List.nodup_cons] at hn e <;>
          · apply hn.1; rw [← e]; simp [Reg.exit_mem]
      exact this f hput

theorem length_replaceFirst (a b : Nat) : ∀ l : List Nat, (replaceFirst a b l).length = l.length
  | [] => rfl
  | x :: xs => by
    unfold replaceFirst
    split
    · rfl
    · simp [length_replaceFirst a b xs]

/-- The conditionals of a group. -/
structure Group (g : Graph) (s : Conv) (R : Reg) (c : Nat) (gs : List Nat) : Prop where
  ne : gs ≠ []
  nodup : gs.Nodup
  wait : ∀ v ∈ gs, Waiting g s R v
  first : ∀ v ∈ gs, s.firstOperand v = c

theorem branch_ok (hg : Input g) {fs : List Frame} {R : Reg} (h : Inv g usage ternaries s (plug fs R)) (hz : Lazy g s (plug fs R)) {c : Nat}
    {gs : List Nat} (hG : Group g s R c gs) :
    ∃ s' ql qr, s.makeBranch R.entry c gs = .ok (s', ql, qr) ∧
      Inv g usage ternaries s' (plug fs (.ite (s.blocks + 2) (.last s.blocks) (.last (s.blocks + 1)) R)) ∧ Ext g s s' ∧ s'.blocks = s.blocks + 3 ∧
      (∀ q ∈ ql ++ qr, Ready g s' q ∧ ∀ k, (g.node q).op ≠ .save k) ∧ (∀ pend, Complete g s (gs ++ pend) → Complete g s' (ql ++ qr ++ [c] ++ pend)) ∧
      (∀ v ∈ gs, s'.visited v = true) ∧ c ∈ g.ops ∧ (∀ k, (g.node c).op ≠ .save k) ∧
      Lazy g s' (plug fs (.ite (s.blocks + 2) (.last s.blocks) (.last (s.blocks + 1)) R)) ∧ (∀ q ∈ ql, HasIn s' (.last s.blocks) q) ∧
      (∀ q ∈ qr, HasIn s' (.last (s.blocks + 1)) q) ∧ ∃ u ∈ s'.live, c ∈ (s'.node u).args ∧ s'.parent u = some (s.blocks + 2) := by
  have hsb : ∀ b, s.blocks ≤ b → s.ops b = [] := by
    intro b hb
    rw [List.eq_nil_iff_forall_not_mem]
    intro v hv
    have := (h.blocks b).1 (h.parent v b ((h.ops b v).1 hv))
    omega
  have ht : s.newBlock.newBlock.ops = s.ops := by
    funext b
    simp only [newBlock]
    by_cases h1 : b = s.blocks + 1
    · subst h1; rw [updateAt_same, hsb _ (by omega)]
    · rw [updateAt_ne _ _ h1]
      by_cases h2 : b = s.blocks
      · subst h2; rw [updateAt_same, hsb _ (by omega)]
      · rw [updateAt_ne _ _ h2]
  have hgs : ∀ v ∈ gs, v ∈ g.ops := fun v hv => (hG.wait v hv).mem
  have hgn : ∀ v ∈ gs, s.node v = g.node v := fun v hv => h.unplaced v (hgs v hv) (hG.wait v hv).not
  have hgp : ∀ v ∈ gs, s.parent v = none := fun v hv => h.parent_none (hgs v hv) (hG.wait v hv).not
  have hlt : ∀ v ∈ g.ops, v < s.next := fun v hv => h.lt v (h.mem v hv)
  have hcond : ∀ v ∈ gs, ∃ a b, s.node v = ⟨.cond, [c, a, b]⟩ := by
    intro v hv
    have h3 := hg.conv.cond v (hgs v hv) (hG.wait v hv).cond
    have hf := hG.first v hv
    simp only [firstOperand] at hf
    have hop : (s.node v).op = .cond := by rw [hgn v hv]; exact (hG.wait v hv).cond
    rw [← hgn v hv] at h3
    match hn : s.node v, hop, h3, hf with
    | ⟨_, [x, a, b]⟩, hop, _, hf =>
      simp only [List.headD_cons] at hf
      simp only at hop
      rw [hop, hf]
      exact ⟨a, b, rfl⟩
  have hopl : ∀ d, ∀ u ∈ s.ops d, u ∈ s.live := fun d u hu => h.live u (by rw [(h.ops d u).1 hu]; simp)
  have hpre : BranchPre s.newBlock.newBlock c gs := by
    refine ⟨hcond, fun v hv => h.mem v (hgs v hv), h.lt, h.closed, fun v hv => (hG.wait v hv).not, ?_, ?_, hG.nodup⟩
    · intro v hv d hm
      rw [ht, h.ops, hgp v hv] at hm
      cases hm
    · intro d u hm
      rw [ht] at hm
      exact h.lt u (hopl d u hm)
  have hWn := nodup_plug h.nodupW
  have hWn' := List.nodup_append.1 hWn
  have hbl : ∀ b ∈ R.blocks ++ ctxBlocks fs, b < s.blocks := by
    intro b hb
    refine (h.blocks b).1 (mem_plug.2 (List.mem_append.1 hb))
  have hUb : R.entry < s.blocks := hbl _ (List.mem_append_left _ R.entry_mem)
  have hB := branches_ok (U := R.entry) (L := s.blocks) (R := s.blocks + 1) (c := c) (by omega) (by omega) (by omega) gs _ hpre
  generalize hp : branches R.entry s.blocks (s.blocks + 1) s.newBlock.newBlock gs = pq at hB
  obtain ⟨p, ql, qr⟩ := pq
  simp only at hB
  -- the values before
  have tn : s.newBlock.newBlock.node = s.node := rfl
  have tp : s.newBlock.newBlock.parent = s.parent := rfl
  have tv : s.newBlock.newBlock.visited = s.visited := rfl
  have tl : s.newBlock.newBlock.live = s.live := rfl
  have tx : s.newBlock.newBlock.next = s.next := rfl
  have hnx : s.next ≤ p.next := hB.next
  have hctxb : ∀ b ∈ ctxBlocks fs, b < s.blocks ∧ b ≠ R.entry := fun b hb =>
    ⟨hbl b (List.mem_append_right _ hb), by rintro rfl; exact hWn'.2.2 _ R.entry_mem _ hb rfl⟩
  have pold : ∀ v, v < s.next → v ∉ gs → p.node v = s.node v ∧ p.parent v = s.parent v ∧ p.visited v = s.visited v := fun v h1 h2 => hB.old v (.inl h1) h2
  have pops : ∀ b, b < s.blocks → b ≠ R.entry → p.ops b = s.ops b := fun b h1 h2 => by
    rw [hB.opsOther b h2 (by omega) (by omega), ht]
  have hjump : ∀ f fs', fs = f :: fs' → ∃ d, Jumps p f.block d := by
    intro f fs' e
    subst e
    obtain ⟨d, hd⟩ := frame_jumps h.scope
    obtain ⟨hb1, hb2⟩ := hctxb f.block (List.mem_append_left _ f.block_mem)
    refine ⟨d, jumps_transfer (pops _ hb1 hb2) (fun v hv => (pold v (h.lt v (hopl _ v hv)) fun hm => ?_).1) hd⟩
    have := (h.ops _ _).1 hv
    rw [hgp v hm] at this
    cases this
  obtain ⟨s', hrun, hL⟩ := makeBranch_linked (c := c) hp hB.anc hB.desc hB.blocks hUb rfl h.lay h.root hctxb hjump
  -- the four kinds of values
  have old : ∀ v, v < s.next → v ∉ gs → s'.node v = s.node v ∧ s'.parent v = s.parent v ∧ s'.visited v = s.visited v := by
    intro v h1 h2
    obtain ⟨a1, a2, a3⟩ := pold v h1 h2
    rw [hL.node, hL.parent, hL.visited, updateAt_ne _ _ (by omega), updateAt_ne _ _ (by omega), updateAt_ne _ _ (by omega)]
    exact ⟨a1, a2, a3⟩
  have keep : ∀ v, v < p.next → s'.node v = p.node v ∧ s'.parent v = p.parent v ∧ s'.visited v = p.visited v := by
    intro v h1
    rw [hL.node, hL.parent, hL.visited, updateAt_ne _ _ (by omega), updateAt_ne _ _ (by omega), updateAt_ne _ _ (by omega)]
    exact ⟨rfl, rfl, rfl⟩
  have grp : ∀ v ∈ gs, s'.parent v = some R.entry ∧ s'.visited v = true ∧ ∃ x y a b, s'.node v = ⟨.phi, [x, y]⟩ ∧ s'.node x = ⟨.copy, [a]⟩ ∧
      s'.node y = ⟨.copy, [b]⟩ ∧ s.node v = ⟨.cond, [c, a, b]⟩ ∧ x ∈ s'.ops s.blocks ∧ y ∈ s'.ops (s.blocks + 1) ∧ s.next ≤ x ∧ x < p.next ∧
      s.next ≤ y ∧ y < p.next := by
    intro v hv
    obtain ⟨a1, a2, x, y, a, b, e1, e2, e3, e4, e5, e6, e7, e8, e9, e10⟩ := hB.phi v hv
    obtain ⟨k1, k2, k3⟩ := keep v (by have := hlt v (hgs v hv); omega)
    refine ⟨k2.trans a1, k3.trans a2, x, y, a, b, k1.trans e1, (keep x e8).1.trans e2, (keep y e10).1.trans e3, e4, ?_, ?_, e7, e8, e9, e10⟩
    · rw [hL.ops, updateAt_ne _ _ (by omega)]; exact e5
    · rw [hL.ops, updateAt_ne _ _ (by omega)]; exact e6
  have cop : ∀ v, s.next ≤ v → v < p.next → s'.visited v = true ∧ (s'.parent v = some s.blocks ∨ s'.parent v = some (s.blocks + 1)) ∧
      ∃ w ∈ gs, ∃ a ∈ (s.node w).args, s'.node v = ⟨.copy, [a]⟩ := by
    intro v h1 h2
    obtain ⟨a1, a2, w, hw, a, ha, e⟩ := hB.new v h1 h2
    obtain ⟨k1, k2, k3⟩ := keep v h2
    exact ⟨k3.trans a1, by rw [k2]; exact a2, w, hw, a, ha, k1.trans e⟩
  have jmp : s'.node p.next = ⟨.jump, [c]⟩ ∧ s'.parent p.next = some (s.blocks + 2) ∧ s'.visited p.next = true := by
    rw [hL.node, hL.parent, hL.visited, updateAt_same, updateAt_same, updateAt_same]
    exact ⟨rfl, rfl, rfl⟩
  have above : ∀ v, p.next < v → s'.parent v = none := by
    intro v hv
    rw [hL.parent, updateAt_ne _ _ (by omega), (hB.old v (.inr (by omega)) fun hm => by have := hlt v (hgs v hm); omega).2.1, tp]
    by_contra hc
    have := h.lt v (h.live v hc)
    omega
  have live : ∀ v, v ∈ s'.live ↔ v ∈ s.live ∨ (s.next ≤ v ∧ v ≤ p.next) := by
    intro v
    rw [hL.live, List.mem_append, hB.live, List.mem_singleton, tl, tx]
    constructor
    · rintro ((h | h) | h)
      · exact .inl h
      · exact .inr ⟨h.1, by omega⟩
      · exact .inr ⟨by omega, by omega⟩
    · rintro (h | h)
      · exact .inl (.inl h)
      · by_cases h2 : v = p.next
        · exact .inr h2
        · exact .inl (.inr ⟨h.1, by omega⟩)
  have opsJ : s'.ops (s.blocks + 2) = [p.next] := by rw [hL.ops, updateAt_same]
  have opsU : s'.ops R.entry = gs.reverse ++ s.ops R.entry := by rw [hL.ops, updateAt_ne _ _ (by omega), hB.opsU, ht]
  have opsN : ∀ b, b = s.blocks ∨ b = s.blocks + 1 → ∀ v, v ∈ s'.ops b ↔ s.next ≤ v ∧ v < p.next ∧ s'.parent v = some b := by
    intro b hb v
    rw [hL.ops, updateAt_ne _ _ (by omega), hB.opsNew b hb, ht, hsb b (by omega)]
    simp only [List.not_mem_nil, false_or]
    constructor
    · rintro ⟨h1, h2, h3⟩; exact ⟨h1, h2, by rw [(keep v h2).2.1]; exact h3⟩
    · rintro ⟨h1, h2, h3⟩; exact ⟨h1, h2, by rw [← (keep v h2).2.1]; exact h3⟩
  have opsO : ∀ b, b < s.blocks → b ≠ R.entry → s'.ops b = s.ops b := by
    intro b h1 h2
    rw [hL.ops, updateAt_ne _ _ (by omega)]
    exact pops b h1 h2
  have opsX : ∀ b, s.blocks + 3 ≤ b → s'.ops b = [] := by
    intro b hb
    rw [hL.ops, updateAt_ne _ _ (by omega), hB.opsOther b (by omega) (by omega) (by omega), ht, hsb b (by omega)]
  -- operands of the group
  have argg : ∀ w ∈ gs, ∀ a ∈ (s.node w).args, a ∈ g.ops ∧ s.visited a = false ∧ a ∉ gs ∧ s'.parent a = none ∧ ∀ k, (g.node a).op ≠ .save k := by
    intro w hw a ha
    have hag : a ∈ g.ops := hg.wf.closed w (hgs w hw) a (by rw [← hgn w hw]; exact ha)
    have hwl := h.mem w (hgs w hw)
    have hnv := h.arg_unvisited hwl (hG.wait w hw).not ha hag
    have hng : a ∉ gs := by
      intro hm
      have := allVisited_iff.1 (hG.wait a hm).all w hwl ha
      rw [(hG.wait w hw).not] at this
      cases this
    refine ⟨hag, hnv, hng, ?_, hg.conv.sinks w (hgs w hw) a (by rw [← hgn w hw]; exact ha)⟩
    rw [(old a (hlt a hag) hng).2.1]
    exact h.parent_none hag hnv
  obtain ⟨w0, hw0⟩ := List.exists_mem_of_ne_nil gs hG.ne
  have hcc := argg w0 hw0 c (by obtain ⟨a, b, e⟩ := hcond w0 hw0; rw [e]; simp)
  have hplaced : ∀ v, s.parent v ≠ none → v < s.next ∧ v ∉ gs := fun v hv =>
    ⟨h.lt v (h.live v hv), fun hm => hv (hgp v hm)⟩
  have hE : Ext g s s' := by
    refine ⟨?_, ?_, ?_, ?_, ?_, ?_, by rw [hL.blocks]; omega⟩
    · intro v hv
      by_cases hm : v ∈ gs
      · exact (grp v hm).2.1
      by_cases h1 : v < s.next
      · rw [(old v h1 hm).2.2]; exact hv
      by_cases h2 : v < p.next
      · exact (cop v (by omega) h2).1
      by_cases h3 : v = p.next
      · rw [h3]; exact jmp.2.2
      rw [hL.visited, updateAt_ne _ _ h3, (hB.old v (.inr (by omega)) hm).2.2]
      exact hv
    · intro v b hv
      obtain ⟨h1, h2⟩ := hplaced v (by rw [hv]; simp)
      rw [(old v h1 h2).2.1]; exact hv
    · intro v hv
      obtain ⟨h1, h2⟩ := hplaced v hv
      exact (old v h1 h2).1
    · exact fun v hv => (live v).2 (.inl hv)
    · intro b v hv
      have hb := (h.blocks b).1 (h.parent v b ((h.ops b v).1 hv))
      by_cases hbU : b = R.entry
      · subst hbU; rw [opsU]; exact List.mem_append_right _ hv
      · rw [opsO b hb hbU]; exact hv
    · intro a _ hall
      have hpa := hB.all a hall
      rw [allVisited_iff] at hpa ⊢
      intro u hu ha
      by_cases hup : u = p.next
      · rw [hup]; exact jmp.2.2
      · have hu' : u < p.next := by
          rcases (live u).1 hu with h1 | h1
          · have := h.lt u h1; omega
          · omega
        rw [(keep u hu').2.2]
        rw [(keep u hu').1] at ha
        refine hpa u ?_ ha
        rw [hB.live, tl, tx]
        rcases (live u).1 hu with h1 | h1
        · exact .inl h1
        · exact .inr ⟨h1.1, hu'⟩
  have hΦ : ∀ c l r v, PhiOf g s c l r v → PhiOf g s' c l r v := fun c l r v hφ => hφ.mono h hE
  have hPhi : ∀ v ∈ gs, PhiOf g s' c s.blocks (s.blocks + 1) v := by
    intro v hv
    obtain ⟨a1, a2, x, y, a, b, e1, e2, e3, e4, e5, e6, _⟩ := grp v hv
    exact ⟨by rw [a1]; simp, x, y, a, b, e1, e2, e3, by rw [← hgn v hv]; exact e4, e5, e6⟩
  have memW : ∀ b, b ∈ (plug fs (.ite (s.blocks + 2) (.last s.blocks) (.last (s.blocks + 1)) R)).blocks ↔
      b = s.blocks + 2 ∨ b = s.blocks ∨ b = s.blocks + 1 ∨ b ∈ (plug fs R).blocks := by
    intro b
    rw [mem_plug, mem_plug]
    simp only [Reg.blocks, List.mem_cons, List.mem_append, List.not_mem_nil, or_false]
    tauto
  have hInv : Inv g usage ternaries s' (plug fs (.ite (s.blocks + 2) (.last s.blocks) (.last (s.blocks + 1)) R)) := by
    refine ⟨?_, ?_, ?_, ?_, ?_, ?_, ?_, ?_, ?_, ?_, ?_, ?_, ?_, ?_, ?_, ?_, ?_, ?_, ?_⟩
    · exact fun v hv => (live v).2 (.inl (h.mem v hv))
    · intro v hv
      rw [hL.next]
      rcases (live v).1 hv with h1 | h1
      · have := h.lt v h1; omega
      · omega
    · intro v hv a ha
      by_cases hm : v ∈ gs
      · obtain ⟨_, _, x, y, _, _, e1, _, _, _, _, _, e7, e8, e9, e10⟩ := grp v hm
        rw [e1] at ha
        simp only [List.mem_cons, List.not_mem_nil, or_false] at ha
        rcases ha with rfl | rfl
        · exact (live _).2 (.inr ⟨e7, by omega⟩)
        · exact (live _).2 (.inr ⟨e9, by omega⟩)
      · rcases (live v).1 hv with h1 | h1
        · rw [(old v (h.lt v h1) hm).1] at ha
          exact (live _).2 (.inl (h.closed v h1 a ha))
        · by_cases h2 : v = p.next
          · rw [h2, jmp.1] at ha
            rw [List.mem_singleton.1 ha]
            exact (live _).2 (.inl (h.mem c hcc.1))
          · obtain ⟨_, _, w, hw, a', ha', e⟩ := cop v h1.1 (by omega)
            rw [e] at ha
            rw [List.mem_singleton.1 ha]
            exact (live _).2 (.inl (h.mem _ (argg w hw a' ha').1))
    · intro v hv hvg
      have hm : v ∉ gs := fun hm => hvg (hgs v hm)
      rcases (live v).1 hv with h1 | h1
      · obtain ⟨m1, m2⟩ := h.made v h1 hvg
        obtain ⟨o1, o2, o3⟩ := old v (h.lt v h1) hm
        refine ⟨by rw [o2]; exact m1, ?_⟩
        rw [o1, o3]
        rcases m2 with m2 | m2 | m2 | ⟨u, k, m2, m3, m4⟩
        · exact .inl m2
        · exact .inr (.inl m2)
        · exact .inr (.inr (.inl m2))
        · refine .inr (.inr (.inr ⟨u, k, m2, m3, ?_⟩))
          rw [(old u (h.lt u (h.closed v h1 u (by rw [m2]; simp))) fun hm => m3 (hgs u hm)).1]
          exact m4
      · by_cases h2 : v = p.next
        · subst h2
          exact ⟨by rw [jmp.2.1]; simp, .inr (.inl ⟨c, hcc.1, jmp.1, jmp.2.2, hcc.2.2.2.2⟩)⟩
        · obtain ⟨e1, e2, w, hw, a, ha, e⟩ := cop v h1.1 (by omega)
          refine ⟨by rcases e2 with e2 | e2 <;> rw [e2] <;> simp, .inl ⟨a, (argg w hw a ha).1, e, e1, (argg w hw a ha).2.2.2.2⟩⟩
    · intro v hv hnv
      have hm : v ∉ gs := fun hm => by rw [(grp v hm).2.1] at hnv; cases hnv
      obtain ⟨o1, o2, o3⟩ := old v (hlt v hv) hm
      rw [o1]
      exact h.unplaced v hv (by rw [← o3]; exact hnv)
    · intro v hv hvv
      by_cases hm : v ∈ gs
      · obtain ⟨_, _, x, y, _, _, e1, _, _, _, _, _, e7, e8, e9, e10⟩ := grp v hm
        exact .inr ⟨x, y, e1, fun hx => by have := hlt x hx; omega, fun hy => by have := hlt y hy; omega, (hG.wait v hm).cond⟩
      · obtain ⟨o1, o2, o3⟩ := old v (hlt v hv) hm
        rw [o1]
        exact h.placed v hv (by rw [← o3]; exact hvv)
    · intro v hv
      by_cases hm : v ∈ gs
      · rw [(grp v hm).1, (grp v hm).2.1]; simp
      · obtain ⟨o1, o2, o3⟩ := old v (hlt v hv) hm
        rw [o2, o3]; exact h.vis v hv
    · intro v hv
      rw [live]
      by_cases hm : v ∈ gs
      · exact .inl (h.mem v (hgs v hm))
      by_cases h1 : v < s.next
      · rw [(old v h1 hm).2.1] at hv
        exact .inl (h.live v hv)
      by_cases h2 : v ≤ p.next
      · exact .inr ⟨by omega, h2⟩
      · exact absurd (above v (by omega)) hv
    · intro b v
      by_cases hb3 : s.blocks + 3 ≤ b
      · rw [opsX b hb3]
        simp only [List.not_mem_nil, false_iff]
        intro hpv
        by_cases hm : v ∈ gs
        · rw [(grp v hm).1, Option.some.injEq] at hpv; omega
        by_cases h1 : v < s.next
        · rw [(old v h1 hm).2.1] at hpv
          have := (h.blocks b).1 (h.parent v b hpv)
          omega
        by_cases h2 : v < p.next
        · rcases (cop v (by omega) h2).2.1 with e | e <;> rw [e, Option.some.injEq] at hpv <;> omega
        by_cases h3 : v = p.next
        · rw [h3, jmp.2.1, Option.some.injEq] at hpv; omega
        rw [above v (by omega)] at hpv; cases hpv
      by_cases hbJ : b = s.blocks + 2
      · subst hbJ
        rw [opsJ, List.mem_singleton]
        constructor
        · rintro rfl; exact jmp.2.1
        · intro hpv
          by_cases hm : v ∈ gs
          · rw [(grp v hm).1, Option.some.injEq] at hpv; omega
          by_cases h1 : v < s.next
          · rw [(old v h1 hm).2.1] at hpv
            have := (h.blocks _).1 (h.parent v _ hpv)
            omega
          by_cases h2 : v < p.next
          · rcases (cop v (by omega) h2).2.1 with e | e <;> rw [e, Option.some.injEq] at hpv <;> omega
          by_contra h3
          rw [above v (by omega)] at hpv; cases hpv
      by_cases hbN : b = s.blocks ∨ b = s.blocks + 1
      · rw [opsN b hbN]
        refine ⟨fun h => h.2.2, fun hpv => ?_⟩
        by_cases hm : v ∈ gs
        · rw [(grp v hm).1, Option.some.injEq] at hpv; omega
        by_cases h1 : v < s.next
        · rw [(old v h1 hm).2.1] at hpv
          have := (h.blocks _).1 (h.parent v _ hpv)
          omega
        by_cases h2 : v < p.next
        · exact ⟨by omega, h2, hpv⟩
        by_cases h3 : v = p.next
        · rw [h3, jmp.2.1, Option.some.injEq] at hpv; omega
        rw [above v (by omega)] at hpv; cases hpv
      have hlast : (v ∈ gs → b = R.entry → (v ∈ s'.ops b ↔ s'.parent v = some b)) ∧ (v ∉ gs → (s.parent v = some b ↔ s'.parent v = some b)) := by
        refine ⟨fun hm hbU => ?_, fun hm => ?_⟩
        · rw [hbU, opsU, (grp v hm).1]; simp [hm]
        · by_cases h1 : v < s.next
          · rw [(old v h1 hm).2.1]
          · have hn : s.parent v = none := by
              by_contra hc
              have := h.lt v (h.live v hc)
              omega
            rw [hn]
            refine ⟨(fun h => nomatch h), fun hpv => ?_⟩
            by_cases h2 : v < p.next
            · rcases (cop v (by omega) h2).2.1 with e | e <;> rw [e, Option.some.injEq] at hpv <;> omega
            by_cases h3 : v = p.next
            · rw [h3, jmp.2.1, Option.some.injEq] at hpv; omega
            rw [above v (by omega)] at hpv; cases hpv
      by_cases hbU : b = R.entry
      · by_cases hm : v ∈ gs
        · exact hlast.1 hm hbU
        · rw [← hlast.2 hm, hbU, opsU, List.mem_append, List.mem_reverse, h.ops]
          simp [hm]
      · rw [opsO b (by omega) hbU]
        by_cases hm : v ∈ gs
        · rw [h.ops, hgp v hm, (grp v hm).1]
          simp [Ne.symm hbU]
        · rw [← hlast.2 hm, h.ops]
    · intro b
      by_cases hb3 : s.blocks + 3 ≤ b
      · rw [opsX b hb3]; exact List.nodup_nil
      by_cases hbJ : b = s.blocks + 2
      · rw [hbJ, opsJ]; simp
      by_cases hbN : b = s.blocks ∨ b = s.blocks + 1
      · rw [hL.ops, updateAt_ne _ _ hbJ]
        refine hB.nodup b hbN ?_ ?_ <;> rw [ht, hsb b (by omega)] <;> simp
      by_cases hbU : b = R.entry
      · rw [hbU, opsU, List.nodup_append]
        refine ⟨List.nodup_reverse.2 hG.nodup, h.nodup _, ?_⟩
        rintro x hx y hy rfl
        rw [h.ops, hgp x (List.mem_reverse.1 hx)] at hy
        cases hy
      · rw [opsO b (by omega) hbU]; exact h.nodup b
    · intro a ha hva
      by_cases hm : a ∈ gs
      · exact hE.all a ha (hG.wait a hm).all
      · rw [(old a (hlt a ha) hm).2.2] at hva
        exact hE.all a ha (h.up a ha hva)
    · intro b
      rw [memW, h.blocks, hL.blocks]
      omega
    · rw [(blocks_plug _ _).nodup_iff]
      have hJ : ∀ b ∈ R.blocks ++ ctxBlocks fs, b ≠ s.blocks ∧ b ≠ s.blocks + 1 ∧ b ≠ s.blocks + 2 := fun b hb => by have := hbl b hb; omega
      simp only [Reg.blocks, List.cons_append, List.nil_append, List.nodup_cons, List.mem_cons, not_or]
      refine ⟨⟨by omega, by omega, fun hm => (hJ _ hm).2.2 rfl⟩, ⟨by omega, fun hm => (hJ _ hm).1 rfl⟩, fun hm => (hJ _ hm).2.1 rfl, hWn⟩
    · intro v b hv
      rw [memW]
      by_cases hm : v ∈ gs
      · rw [(grp v hm).1, Option.some.injEq] at hv
        rw [← hv]
        exact .inr (.inr (.inr (mem_plug.2 (.inl R.entry_mem))))
      by_cases h1 : v < s.next
      · rw [(old v h1 hm).2.1] at hv
        exact .inr (.inr (.inr (h.parent v b hv)))
      by_cases h2 : v < p.next
      · rcases (cop v (by omega) h2).2.1 with e | e <;> rw [e, Option.some.injEq] at hv
        · exact .inr (.inl hv.symm)
        · exact .inr (.inr (.inl hv.symm))
      by_cases h3 : v = p.next
      · rw [h3, jmp.2.1, Option.some.injEq] at hv
        exact .inl hv.symm
      rw [above v (by omega)] at hv; cases hv
    · exact lay_branch h.lay hWn hL.ancU hL.ancL hL.ancR hL.ancJ (fun b hb hne => hL.anc b (hbl b hb) hne) hL.descL hL.descR hL.descJ
        (fun b hb hne => hL.desc b (hbl b hb) hne) hL.descF
    · cases fs with
      | nil => exact hL.ancJ
      | cons f fs =>
        rw [entry_plug (R := R)]
        have hm : (plug (f :: fs) R).entry ∈ ctxBlocks (f :: fs) := by
          have : ∀ (fs : List Frame) (f : Frame) (R : Reg), (plug (f :: fs) R).entry ∈ ctxBlocks (f :: fs) := by
            intro fs
            induction fs with
            | nil => intro f R; simp [plug, Frame.entry_put, ctxBlocks, f.block_mem]
            | cons f' fs ih => intro f R; exact List.mem_append_right _ (ih f' (f.put R))
          exact this fs f R
        rw [hL.anc _ (hctxb _ hm).1 (hctxb _ hm).2]
        exact h.root
    · have he : (plug fs (.ite (s.blocks + 2) (.last s.blocks) (.last (s.blocks + 1)) R)).exit = (plug fs R).exit := exit_plug rfl
      rw [he]
      rw [hL.desc _ ((h.blocks _).1 (plug fs R).exit_mem) ?_]
      · exact h.stop
      · intro hm
        cases fs with
        | nil => simp [entryAnc] at hm
        | cons f fs =>
          have := (frame_desc (lay_plug (fs := fs) (R := f.put R) h.lay)).2
          rw [← List.mem_singleton.1 hm, h.stop] at this
          simp at this
    · refine scoped_plug (X := fun a => a ∈ gs ∨ s.next ≤ a) hΦ fs R _ _ _ ?_ ?_ rfl ?_ h.scope
      · intro b hb
        obtain ⟨hb1, hb2⟩ := hctxb b hb
        refine ⟨opsO b hb1 hb2, fun v hv => ?_⟩
        have hpv := (h.ops b v).1 hv
        obtain ⟨h1, h2⟩ := hplaced v (by rw [hpv]; simp)
        refine ⟨(old v h1 h2).1, ?_⟩
        rintro a ha _ (hm | hm)
        · obtain ⟨b', hb', hp'⟩ := (hG.wait a hm).inside v (hopl b v hv) ha
          rw [hpv, Option.some.injEq] at hp'
          exact hWn'.2.2 b' hb' b hb hp'.symm
        · have := h.lt a (h.closed v (hopl b v hv) a ha)
          omega
      · intro a ha
        by_cases hm : a ∈ gs
        · exact .inl (.inl hm)
        by_cases h1 : a < s.next
        · right
          rw [(old a h1 hm).2.1]; exact ha
        · exact .inl (.inr (by omega))
      · intro B B' hBA hB' hBB hsc
        simp only [Scoped, Reg.exit]
        have hsc2 : Scoped s (PhiOf g s) (fun a => B a ∧ a < s.next) (fun _ => False) R := by
          refine scoped_transfer (X := fun a => s.next ≤ a) (fun _ _ _ _ h => h) R B _ _ _ ?_ ?_ (fun _ h => h) hsc
          · intro b _
            refine ⟨rfl, fun v hv => ⟨rfl, fun a ha _ hm => ?_⟩⟩
            have := h.lt a (h.closed v (hopl b v hv) a ha)
            omega
          · intro a ha
            by_cases h1 : a < s.next
            · exact .inr ⟨ha, h1⟩
            · exact .inl (by omega)
        have hcopies : ∀ b, b = s.blocks ∨ b = s.blocks + 1 → OpsOk s' (fun _ => False) (fun a => B' a ∨ a ∈ s'.ops (s.blocks + 2)) (s'.ops b) := by
          intro b hb
          refine opsOk_plain _ _ fun v hv => ?_
          obtain ⟨h1, h2, h3⟩ := (opsN b hb v).1 hv
          obtain ⟨_, _, w, hw, a, ha, e⟩ := cop v h1 h2
          rw [e]
          refine ⟨by simp, fun x hx => ?_⟩
          rw [List.mem_singleton.1 hx]
          exact .inl (hB' a (argg w hw a ha).2.2.2.1)
        refine ⟨?_, c, ?_, hcopies _ (.inl rfl), hcopies _ (.inr rfl), ?_⟩
        · rw [opsJ]
          refine opsOk_plain _ _ fun v hv => ?_
          rw [List.mem_singleton.1 hv, jmp.1]
          refine ⟨by simp, fun x hx => ?_⟩
          rw [List.mem_singleton.1 hx]
          exact hB' c hcc.2.2.2.1
        · exact ⟨p.next, by rw [opsJ]; rfl, jmp.1⟩
        · refine scoped_front (s := s) (s' := s') (Φ := PhiOf g s) (X := gs.reverse) (A := fun a => B a ∧ a < s.next) (P := fun _ => False) hΦ R opsU ?_ ?_ ?_ ?_
            (fun _ h => h.elim) hsc2
          · intro b hb
            have hbR : b ∈ R.blocks := by rw [R.blocks_eq]; exact List.mem_cons_of_mem _ hb
            refine opsO b (hbl b (List.mem_append_left _ hbR)) ?_
            rintro rfl
            have := hWn'.1
            rw [R.blocks_eq, List.nodup_cons] at this
            exact this.1 hb
          · intro b _ v hv
            obtain ⟨h1, h2⟩ := hplaced v (by rw [(h.ops b v).1 hv]; simp)
            exact (old v h1 h2).1
          · refine opsOk_phis _ _ fun v hv => ?_
            have hv := List.mem_reverse.1 hv
            obtain ⟨_, _, x, y, a, b, e, _⟩ := grp v hv
            exact ⟨by rw [e], hPhi v hv⟩
          · rintro a ⟨ha, hal⟩
            rcases hBB a ha with (h1 | h1) | h1
            · exact .inr (List.mem_reverse.2 h1)
            · omega
            · exact .inl (.inl h1)
    · intro v hv k b hk hpv
      have hm : v ∉ gs := fun hm => by rw [(hG.wait v hm).cond] at hk; cases hk
      rw [(old v (hlt v hv) hm).2.1] at hpv
      have he : (plug fs (.ite (s.blocks + 2) (.last s.blocks) (.last (s.blocks + 1)) R)).exits = (plug fs R).exits := exits_plug rfl rfl
      rw [he]
      exact h.saves v hv k b hk hpv
  have hblive : ∀ b v, v ∈ s'.ops b → v ∈ s'.live := fun b v hv => hInv.live v (by rw [(hInv.ops b v).1 hv]; simp)
  have hlazy : Lazy g s' (plug fs (.ite (s.blocks + 2) (.last s.blocks) (.last (s.blocks + 1)) R)) := by
    have harms : ∀ L' ∈ (plug fs (.ite (s.blocks + 2) (.last s.blocks) (.last (s.blocks + 1)) R)).arms,
        (∀ b ∈ L'.blocks, s.blocks ≤ b) ∨ ∃ L ∈ (plug fs R).arms, (∀ b ∈ L.blocks, b ∈ L'.blocks) ∧ ∀ b ∈ L'.blocks, b ∈ L.blocks ∨ s.blocks ≤ b := by
      intro L' hL'
      rcases arms_grow (N := s.blocks) fs R _ (fun b hb => by simp [Reg.blocks, hb]) (fun b hb => by
          simp only [Reg.blocks, List.mem_cons, List.mem_append, List.not_mem_nil, or_false] at hb
          rcases hb with hb | (hb | hb) | hb
          · exact .inr (by omega)
          · exact .inr (by omega)
          · exact .inr (by omega)
          · exact .inl hb) L' hL' with h1 | h1
      · simp only [Reg.arms, List.nil_append, List.mem_cons] at h1
        rcases h1 with rfl | rfl | h1
        · exact .inl fun b hb => by simp [Reg.blocks] at hb; omega
        · exact .inl fun b hb => by simp [Reg.blocks] at hb; omega
        · exact .inr ⟨L', mem_arms_plug fs h1, fun _ h => h, fun _ h => .inl h⟩
      · exact .inr h1
    refine ⟨?_, ?_, ?_, ?_, ?_⟩
    · intro w hw hvw hs L' hL' hi
      by_cases hm : w ∈ gs
      · have hh : HasIn s R w := (hG.wait w hm).due.has.resolve_left fun ⟨k, hk⟩ => hs k hk
        -- a consumer outside an arm stays outside when the arm grows
        have hout : ∀ L : Reg, Outside s L w → (∀ b ∈ L'.blocks, b ∈ L.blocks ∨ s.blocks ≤ b) → False := by
          rintro L ⟨u, hu, ha, b, hp, hb⟩ hLL
          refine Outside.not_inside (s := s') (R := L') ?_ hi
          refine ⟨u, hE.live u hu, by rw [hE.node u (by rw [hp]; simp)]; exact ha, b, hE.parent u b hp, fun hb' => ?_⟩
          have := (h.blocks b).1 (h.parent u b hp)
          rcases hLL b hb' with h1 | h1
          · exact hb h1
          · omega
        rcases harms L' hL' with hf | ⟨L, hLm, h1, h2⟩
        · obtain ⟨u, hu, ha, b, hp, hb⟩ := hh
          obtain ⟨b', hb', hp'⟩ := hi u (hE.live u hu) (by rw [hE.node u (by rw [hp]; simp)]; exact ha)
          rw [hE.parent u b hp] at hp'
          cases hp'
          have := hbl b (List.mem_append_left _ hb)
          have := hf b hb'
          omega
        · rcases arms_plug fs R h.nodupW hLm with h3 | h3 | h3
          · exact (hout L ((hG.wait w hm).due.arms L h3) h2).elim
          · exact ⟨R.entry, h1 _ (h3 _ R.entry_mem), (grp w hm).1⟩
          · exact (hout L (hh.outside h3) h2).elim
      · rw [(old w (hlt w hw) hm).2.2] at hvw
        exact hz.deep_ext h hE harms hw hvw hs hL' hi
    · intro w hw hs
      obtain ⟨u, hu, ha⟩ := hz.used w hw hs
      by_cases hm : u ∈ gs
      · obtain ⟨_, _, x, y, a, b, _, e2, e3, e4, e5, e6, _⟩ := grp u hm
        rw [e4] at ha
        simp only [List.mem_cons, List.not_mem_nil, or_false] at ha
        rcases ha with rfl | rfl | rfl
        · exact ⟨p.next, (live _).2 (.inr ⟨by omega, le_rfl⟩), by rw [jmp.1]; simp⟩
        · exact ⟨x, hblive _ x e5, by rw [e2]; simp⟩
        · exact ⟨y, hblive _ y e6, by rw [e3]; simp⟩
      · exact ⟨u, hE.live u hu, by rw [(old u (h.lt u hu) hm).1]; exact ha⟩
    · intro x hx hxg hc
      rcases (live x).1 hx with h1 | h1
      · have hm : x ∉ gs := fun hm => hxg (hgs x hm)
        rw [(old x (h.lt x h1) hm).1] at hc
        obtain ⟨b, v, hv, hphi, ha⟩ := hz.copies x h1 hxg hc
        have hnv := hE.node v (by rw [(h.ops b v).1 hv]; simp)
        exact ⟨b, v, hE.ops b v hv, by rw [hnv]; exact hphi, by rw [hnv]; exact ha⟩
      · by_cases h2 : x = p.next
        · rw [h2, jmp.1] at hc; cases hc
        · obtain ⟨w, hw, ha⟩ := hB.mine x h1.1 (by omega)
          obtain ⟨e0, _, _, _, _, _, e1, _⟩ := grp w hw
          refine ⟨R.entry, w, by rw [opsU]; simp [hw], by rw [e1], ?_⟩
          rw [(keep w (by have := hlt w (hgs w hw); omega)).1]
          exact ha
    · refine HasPhi.plug fs (hz.phis.ext h hE) fun hR => ⟨⟨w0, by change w0 ∈ s'.ops R.entry; rw [opsU]; simp [hw0], ?_⟩, trivial, trivial, hR⟩
      obtain ⟨_, _, x, y, _, _, e1, _⟩ := grp w0 hw0
      rw [e1]
    · intro b v hv hj
      by_cases hm : v ∈ gs
      · obtain ⟨_, _, x, y, _, _, e1, _⟩ := grp v hm
        rw [e1] at hj; cases hj
      by_cases h1 : v < s.next
      · obtain ⟨o1, o2, _⟩ := old v h1 hm
        have hsp : s.parent v = some b := by rw [← o2]; exact (hInv.ops b v).1 hv
        have hb := (h.blocks b).1 (h.parent v b hsp)
        obtain ⟨l1, l2⟩ := hz.jumps b v ((h.ops b v).2 hsp) (by rw [← o1]; exact hj)
        constructor
        · by_cases hbU : b = R.entry
          · subst hbU; rw [opsU]; exact getLast?_front l1
          · rw [opsO b hb hbU]; exact l1
        · by_cases hbe : b ∈ entryAnc fs
          · rw [hL.descF b hbe, length_replaceFirst]; exact l2
          · rw [hL.desc b hb hbe]; exact l2
      by_cases h2 : v < p.next
      · obtain ⟨_, _, w, hw, a, ha, e⟩ := cop v (by omega) h2
        rw [e] at hj; cases hj
      by_cases h3 : v = p.next
      · have hb : b = s.blocks + 2 := by
          have := (hInv.ops b v).1 hv
          rw [h3, jmp.2.1, Option.some.injEq] at this
          exact this.symm
        subst hb
        rw [opsJ, hL.descJ, h3]
        exact ⟨rfl, rfl⟩
      · have := (hInv.ops b v).1 hv
        rw [above v (by omega)] at this; cases this
  have hleft : ∀ q ∈ ql, HasIn s' (.last s.blocks) q := by
    intro q hm
    obtain ⟨_, x, hx, h2, _, h4⟩ := hB.left q hm
    have hx' : x ∈ s'.ops s.blocks := by rw [hL.ops, updateAt_ne _ _ (by omega)]; exact hx
    exact ⟨x, hblive _ x hx', by rw [(keep x h4).1, h2]; simp, s.blocks, (hInv.ops _ _).1 hx', by simp [Reg.blocks]⟩
  have hright : ∀ q ∈ qr, HasIn s' (.last (s.blocks + 1)) q := by
    intro q hm
    obtain ⟨_, x, hx, h2, _, h4⟩ := hB.right q hm
    have hx' : x ∈ s'.ops (s.blocks + 1) := by rw [hL.ops, updateAt_ne _ _ (by omega)]; exact hx
    exact ⟨x, hblive _ x hx', by rw [(keep x h4).1, h2]; simp, s.blocks + 1, (hInv.ops _ _).1 hx', by simp [Reg.blocks]⟩
  refine ⟨s', ql, qr, hrun, hInv, hE, hL.blocks, ?_, ?_, fun v hv => (grp v hv).2.1, hcc.1, hcc.2.2.2.2, hlazy, hleft, hright,
    p.next, (live _).2 (.inr ⟨by omega, le_rfl⟩), by rw [jmp.1]; simp, jmp.2.1⟩
  · have hjall : ∀ q, p.allVisited q = true → s'.allVisited q = true := by
      intro q hq
      rw [allVisited_iff] at hq ⊢
      intro u hu ha
      by_cases hup : u = p.next
      · rw [hup]; exact jmp.2.2
      · have hu' : u < p.next := by
          rcases (live u).1 hu with h1 | h1
          · have := h.lt u h1; omega
          · omega
        rw [(keep u hu').2.2]
        rw [(keep u hu').1] at ha
        refine hq u ?_ ha
        rw [hB.live, tl, tx]
        rcases (live u).1 hu with h1 | h1
        · exact .inl h1
        · exact .inr ⟨h1.1, hu'⟩
    have hq : ∀ q x, s.next ≤ x → x < p.next → p.node x = ⟨.copy, [q]⟩ → p.allVisited q = true → Ready g s' q ∧ ∀ k, (g.node q).op ≠ .save k := by
      intro q x h1 h2 h3 h4
      obtain ⟨_, _, w, hw, a, ha, e⟩ := cop x h1 h2
      rw [(keep x h2).1, h3] at e
      simp only [Node.mk.injEq, List.cons.injEq, and_true, true_and] at e
      rw [e]
      exact ⟨⟨(argg w hw a ha).1, hjall a (by rw [← e]; exact h4)⟩, (argg w hw a ha).2.2.2.2⟩
    intro q hm
    rcases List.mem_append.1 hm with hm | hm
    · obtain ⟨h1, x, _, h2, h3, h4⟩ := hB.left q hm
      exact hq q x h3 h4 h2 h1
    · obtain ⟨h1, x, _, h2, h3, h4⟩ := hB.right q hm
      exact hq q x h3 h4 h2 h1
  · intro pend hc a ha hva hall
    have hm : a ∉ gs := fun hm => by rw [(grp a hm).2.1] at hva; cases hva
    have hal := hlt a ha
    have hpa : p.allVisited a = true := by
      rw [allVisited_iff] at hall ⊢
      intro u hu hau
      have hu' : u < p.next := by
        rw [hB.live, tl, tx] at hu
        rcases hu with h1 | h1
        · have := h.lt u h1; omega
        · exact h1.2
      rw [← (keep u hu').2.2]
      refine hall u ?_ (by rw [(keep u hu').1]; exact hau)
      rw [hL.live]
      exact List.mem_append_left _ hu
    have hpv : p.visited a = false := by rw [← (keep a (by omega)).2.2]; exact hva
    have hsv : s.visited a = false := by rw [← (old a hal hm).2.2]; exact hva
    rcases hB.complete a hpv hpa with h1 | h1 | h1 | h1
    · have := hc a ha hsv h1
      simp only [List.mem_append] at this ⊢
      tauto
    · simp only [List.mem_append]; tauto
    · simp only [List.mem_append]; tauto
    · simp only [List.mem_append, List.mem_singleton]; tauto

end Wf.Gen
