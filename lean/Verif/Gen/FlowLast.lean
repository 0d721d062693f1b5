import Verif.Gen.FlowInv

/-!
# The last operations of blocks do not change (used in proofs)
-/

namespace Wf.Gen

open Conv

/-- The blocks of the first state keep their last operation. -/
def KeepsLast (s s' : Conv) : Prop := s.blocks ≤ s'.blocks ∧ ∀ b < s.blocks, ∀ v, (s.ops b).getLast? = some v → (s'.ops b).getLast? = some v

theorem KeepsLast.refl (s : Conv) : KeepsLast s s := ⟨Nat.le_refl _, fun _ _ _ h => h⟩

theorem KeepsLast.trans {s s' s'' : Conv} (h : KeepsLast s s') (h' : KeepsLast s' s'') : KeepsLast s s'' :=
  ⟨Nat.le_trans h.1 h'.1, fun b hb v hv => h'.2 b (Nat.lt_of_lt_of_le hb h.1) v (h.2 b hb v hv)⟩

theorem KeepsLast.of_eq {s s' : Conv} (hb : s'.blocks = s.blocks) (ho : s'.ops = s.ops) : KeepsLast s s' :=
  ⟨by rw [hb], fun b _ v hv => by rw [ho]; exact hv⟩

theorem getLast?_cons_of {l : List Nat} {u v : Nat} (h : l.getLast? = some v) : (u :: l).getLast? = some v := by
  cases l with
  | nil => cases h
  | cons a l => rw [List.getLast?_cons_cons]; exact h

theorem keepsLast_place (s : Conv) (u b : Nat) : KeepsLast s (s.place u b) := by
  refine ⟨Nat.le_refl _, fun d _ v hv => ?_⟩
  simp only [place]
  by_cases hd : d = b
  · subst hd
    rw [updateAt_same]
    exact getLast?_cons_of hv
  · rw [updateAt_ne _ _ hd]
    exact hv

theorem keepsLast_newBlock (s : Conv) : KeepsLast s s.newBlock := by
  refine ⟨Nat.le_succ _, fun d hd v hv => ?_⟩
  simp only [newBlock]
  rw [updateAt_ne _ _ (Nat.ne_of_lt hd)]
  exact hv

/-- A change of blocks from number `N` on. -/
structure KeepsBelow (N : Nat) (s s' : Conv) : Prop where
  le : s.blocks ≤ s'.blocks
  ops : ∀ b < N, ∀ v, (s.ops b).getLast? = some v → (s'.ops b).getLast? = some v

theorem KeepsBelow.refl (N : Nat) (s : Conv) : KeepsBelow N s s := ⟨Nat.le_refl _, fun _ _ _ h => h⟩

theorem KeepsBelow.trans {N : Nat} {s s' s'' : Conv} (h : KeepsBelow N s s') (h' : KeepsBelow N s' s'') : KeepsBelow N s s'' :=
  ⟨Nat.le_trans h.le h'.le, fun b hb v hv => h'.ops b hb v (h.ops b hb v hv)⟩

theorem KeepsLast.below {N : Nat} {s s' : Conv} (h : KeepsLast s s') (hN : N ≤ s.blocks) : KeepsBelow N s s' :=
  ⟨h.1, fun b hb => h.2 b (Nat.lt_of_lt_of_le hb hN)⟩

theorem KeepsBelow.of_eq {N : Nat} {s s' : Conv} (hb : s'.blocks = s.blocks) (ho : s'.ops = s.ops) : KeepsBelow N s s' :=
  ⟨by rw [hb], fun b _ v hv => by rw [ho]; exact hv⟩

theorem keepsBelow_place (N : Nat) (s : Conv) (u b : Nat) : KeepsBelow N s (s.place u b) := by
  refine ⟨Nat.le_refl _, fun d _ v hv => ?_⟩
  simp only [place]
  by_cases hd : d = b
  · subst hd
    rw [updateAt_same]
    exact getLast?_cons_of hv
  · rw [updateAt_ne _ _ hd]
    exact hv

theorem keepsBelow_create {N : Nat} (s : Conv) {b : Nat} (op : Op) (args : List Nat) (hb : N ≤ b) : KeepsBelow N s (s.create b op args) := by
  refine ⟨Nat.le_refl _, fun d hd v hv => ?_⟩
  simp only [create]
  rw [updateAt_ne _ _ (by omega)]
  exact hv

theorem keepsBelow_addDescendant {N : Nat} {s s' : Conv} {b d : Nat} (h : s.addDescendant b d = .ok s') : KeepsBelow N s s' := by
  unfold addDescendant at h
  by_cases hc : d ∈ s.desc b ∨ b ∈ s.anc d
  · rw [if_pos hc] at h; cases h
  · rw [if_neg hc] at h; cases h; exact .of_eq rfl rfl

theorem ok_of_ite {p : Prop} [Decidable p] {e : Err} {x t : Conv} (h : (if p then .error e else .ok x : Res Conv) = .ok t) : x = t := by
  by_cases hp : p
  · rw [if_pos hp] at h; cases h
  · rw [if_neg hp] at h; cases h; rfl

theorem keepsBelow_redirect {N target new : Nat} : ∀ (as : List Nat) (s s' : Conv), redirect target new s as = .ok s' → KeepsBelow N s s'
  | [], s, s', h => by
    unfold redirect at h
    cases h
    exact .refl _ _
  | a :: as, s, s', h => by
    unfold redirect at h
    cases hc : check (!(s.ops a).isEmpty && !(s.desc a).isEmpty) with
    | error e => rw [hc] at h; cases h
    | ok _ =>
      rw [hc] at h
      change (s.replaceDescendant a target new >>= _) = _ at h
      cases hr : s.replaceDescendant a target new with
      | error e => rw [hr] at h; cases h
      | ok t =>
        rw [hr] at h
        refine KeepsBelow.trans ?_ (keepsBelow_redirect as t s' h)
        unfold replaceDescendant at hr
        have := ok_of_ite hr
        rw [← this]
        exact .of_eq rfl rfl

theorem keepsBelow_branches {N block left right : Nat} (hl : N ≤ left) (hr : N ≤ right) : ∀ (vs : List Nat) (s : Conv),
    KeepsBelow N s (branches block left right s vs).1
  | [], s => .refl _ _
  | v :: vs, s => by
    unfold branches
    refine KeepsBelow.trans ?_ (keepsBelow_branches hl hr vs (branch block left right s v).1)
    refine (keepsBelow_create s .copy [(s.node v).args.getD 1 0] hl).trans
      ((keepsBelow_create (s.create left .copy [(s.node v).args.getD 1 0]) .copy [(s.node v).args.getD 2 0] hr).trans
        ((keepsBelow_place N ((s.create left .copy [(s.node v).args.getD 1 0]).create right .copy [(s.node v).args.getD 2 0]) v block).trans
          (KeepsBelow.of_eq rfl rfl)))

theorem keepsLast_makeBranch {s : Conv} {block c : Nat} {grouped : List Nat} {p : Conv × List Nat × List Nat}
    (h : s.makeBranch block c grouped = .ok p) : KeepsLast s p.1 := by
  unfold makeBranch at h
  simp only at h
  cases h1 : (branches block s.blocks (s.blocks + 1) s.newBlock.newBlock grouped).1.addDescendant s.blocks block with
  | error e => rw [h1] at h; cases h
  | ok s1 =>
    rw [h1] at h
    change (s1.addDescendant (s.blocks + 1) block >>= _) = _ at h
    cases h2 : s1.addDescendant (s.blocks + 1) block with
    | error e => rw [h2] at h; cases h
    | ok s2 =>
      rw [h2] at h
      change (((s2.newBlock.create (s.blocks + 2) .jump [c]).visit s2.next).addDescendant (s.blocks + 2) s.blocks >>= _) = _ at h
      cases h4 : ((s2.newBlock.create (s.blocks + 2) .jump [c]).visit s2.next).addDescendant (s.blocks + 2) s.blocks with
      | error e => rw [h4] at h; cases h
      | ok s4 =>
        rw [h4] at h
        change (s4.addDescendant (s.blocks + 2) (s.blocks + 1) >>= _) = _ at h
        cases h5 : s4.addDescendant (s.blocks + 2) (s.blocks + 1) with
        | error e => rw [h5] at h; cases h
        | ok s5 =>
          rw [h5] at h
          change (redirect block (s.blocks + 2) s5 _ >>= _) = _ at h
          cases h6 : redirect block (s.blocks + 2) s5 ((branches block s.blocks (s.blocks + 1) s.newBlock.newBlock grouped).1.anc block) with
          | error e => rw [h6] at h; cases h
          | ok s6 =>
            rw [h6] at h
            cases h
            have k0 : KeepsBelow s.blocks s s.newBlock.newBlock := (keepsLast_newBlock s).trans (keepsLast_newBlock _) |>.below (Nat.le_refl _)
            have k1 := k0.trans (keepsBelow_branches (block := block) (Nat.le_refl s.blocks) (Nat.le_succ s.blocks) grouped s.newBlock.newBlock)
            have k2 := k1.trans ((keepsBelow_addDescendant h1).trans (keepsBelow_addDescendant h2))
            have k3 : KeepsBelow s.blocks s ((s2.newBlock.create (s.blocks + 2) .jump [c]).visit s2.next) :=
              (k2.trans ((keepsLast_newBlock s2).below k2.le)).trans ((keepsBelow_create s2.newBlock .jump [c] (by omega)).trans (KeepsBelow.of_eq rfl rfl))
            have k4 := k3.trans ((keepsBelow_addDescendant h4).trans ((keepsBelow_addDescendant h5).trans (keepsBelow_redirect _ _ _ h6)))
            exact ⟨k4.le, k4.ops⟩

theorem keepsLast_drain {convert : Bool} {block : Nat} : ∀ (n : Nat) (s : Conv) (queue deferred conds : List Nat) (p : Conv × List Nat × List Nat),
    drain convert block n s queue deferred conds = .ok p → KeepsLast s p.1
  | 0, s, [], deferred, conds, p, h => by unfold drain at h; cases h; exact .refl _
  | n + 1, s, [], deferred, conds, p, h => by unfold drain at h; cases h; exact .refl _
  | 0, s, _ :: _, _, _, p, h => by unfold drain at h; cases h
  | n + 1, s, top :: queue, deferred, conds, p, h => by
    unfold drain at h
    by_cases h1 : s.visited top = true
    · rw [if_pos h1] at h; exact keepsLast_drain n s queue deferred conds p h
    rw [if_neg h1] at h
    by_cases h2 : (!s.allVisited top) = true
    · rw [if_pos h2] at h; cases h
    rw [if_neg h2] at h
    by_cases h3 : (!s.insertable top block) = true
    · rw [if_pos h3] at h; exact keepsLast_drain n s _ _ _ p h
    rw [if_neg h3] at h
    by_cases h4 : (s.node top).op = .cond ∧ convert = true
    · rw [if_pos h4] at h; exact keepsLast_drain n s _ _ _ p h
    rw [if_neg h4] at h
    exact (keepsLast_place s top block).trans (keepsLast_drain n _ _ _ _ p h)

theorem keepsLast_process {convert : Bool} : ∀ (n : Nat) (s : Conv) (queue : List Nat) (block : Nat) (deferred : List Nat) (p : Conv × Nat × List Nat),
    process convert n s queue block deferred = .ok p → KeepsLast s p.1
  | 0, _, _, _, _, p, h => by unfold process at h; cases h
  | n + 1, s, queue, block, deferred, p, h => by
    unfold process at h
    cases h1 : drain convert block (s.turns queue) s queue deferred [] with
    | error e => rw [h1] at h; cases h
    | ok d =>
      rw [h1] at h
      have k1 := keepsLast_drain _ _ _ _ _ _ h1
      change (if d.2.2 = [] then _ else _) = _ at h
      by_cases hd : d.2.2 = []
      · rw [if_pos hd] at h; cases h; exact k1
      rw [if_neg hd] at h
      change (d.1.makeBranch block _ _ >>= _) = _ at h
      cases h2 : d.1.makeBranch block (d.1.commonCondition (sortedConds d.2.2))
          ((sortedConds d.2.2).filter fun v => d.1.firstOperand v = d.1.commonCondition (sortedConds d.2.2)) with
      | error e => rw [h2] at h; cases h
      | ok b =>
        rw [h2] at h
        have k2 := k1.trans (keepsLast_makeBranch h2)
        change (process convert n b.1 b.2.1 d.1.blocks [] >>= _) = _ at h
        cases h3 : process convert n b.1 b.2.1 d.1.blocks [] with
        | error e => rw [h3] at h; cases h
        | ok l =>
          rw [h3] at h
          have k3 := k2.trans (keepsLast_process n _ _ _ _ _ h3)
          change (process convert n l.1 b.2.2 (d.1.blocks + 1) l.2.2 >>= _) = _ at h
          cases h4 : process convert n l.1 b.2.2 (d.1.blocks + 1) l.2.2 with
          | error e => rw [h4] at h; cases h
          | ok r =>
            rw [h4] at h
            exact (k3.trans (keepsLast_process n _ _ _ _ _ h4)).trans (keepsLast_process n _ _ _ _ _ h)

/-- The first value of the queue that is placed becomes the last operation of an empty block. -/
theorem process_first {convert : Bool} {n : Nat} {s : Conv} {v block : Nat} {queue deferred : List Nat} {p : Conv × Nat × List Nat}
    (h : process convert n s (v :: queue) block deferred = .ok p) (ho : s.ops block = []) (hb : block < s.blocks) (hv : s.visited v = false)
    (hc : s.consumers v = []) (hn : (s.node v).op ≠ .cond) : (p.1.ops block).getLast? = some v := by
  have hall : s.allVisited v = true := by simp [allVisited, hc]
  have hins : s.insertable v block = true := by simp [insertable, hc]
  cases n with
  | zero => unfold process at h; cases h
  | succ n =>
    have ht : s.turns (v :: queue) = (queue.length + (s.live.map fun v => (s.node v).args.length).sum) + 1 := by
      simp only [turns, List.length_cons]; omega
    have hstep : process convert (n + 1) s (v :: queue) block deferred = .ok p → ∃ d, drain convert block (s.turns (v :: queue)) s (v :: queue) deferred [] = .ok d ∧ KeepsLast d.1 p.1 := by
      intro h
      unfold process at h
      cases h1 : drain convert block (s.turns (v :: queue)) s (v :: queue) deferred [] with
      | error e => rw [h1] at h; cases h
      | ok d =>
        refine ⟨d, rfl, ?_⟩
        rw [h1] at h
        change (if d.2.2 = [] then _ else _) = _ at h
        by_cases hd : d.2.2 = []
        · rw [if_pos hd] at h; cases h; exact .refl _
        rw [if_neg hd] at h
        change (d.1.makeBranch block _ _ >>= _) = _ at h
        cases h2 : d.1.makeBranch block (d.1.commonCondition (sortedConds d.2.2))
            ((sortedConds d.2.2).filter fun v => d.1.firstOperand v = d.1.commonCondition (sortedConds d.2.2)) with
        | error e => rw [h2] at h; cases h
        | ok b =>
          rw [h2] at h
          change (process convert n b.1 b.2.1 d.1.blocks [] >>= _) = _ at h
          cases h3 : process convert n b.1 b.2.1 d.1.blocks [] with
          | error e => rw [h3] at h; cases h
          | ok l =>
            rw [h3] at h
            change (process convert n l.1 b.2.2 (d.1.blocks + 1) l.2.2 >>= _) = _ at h
            cases h4 : process convert n l.1 b.2.2 (d.1.blocks + 1) l.2.2 with
            | error e => rw [h4] at h; cases h
            | ok r =>
              rw [h4] at h
              exact (keepsLast_makeBranch h2).trans ((keepsLast_process n _ _ _ _ _ h3).trans ((keepsLast_process n _ _ _ _ _ h4).trans (keepsLast_process n _ _ _ _ _ h)))
    obtain ⟨d, h1, hk⟩ := hstep h
    rw [ht] at h1
    unfold drain at h1
    rw [if_neg (by simp [hv]), if_neg (by simp [hall]), if_neg (by simp [hins]), if_neg (fun h => hn h.1)] at h1
    refine ((keepsLast_drain _ _ _ _ _ _ h1).trans hk).2 block hb v ?_
    simp [place, ho]

end Wf.Gen
