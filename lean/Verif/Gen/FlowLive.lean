import Verif.Gen.FlowConvert

/-!
# The values are listed once (used in proofs)
-/

namespace Wf.Gen

open Conv

/-- New values get new names. -/
def LiveOk (s : Conv) : Prop := s.live.Nodup ∧ ∀ v ∈ s.live, v < s.next

theorem LiveOk.of_eq {s s' : Conv} (h : LiveOk s) (h1 : s'.live = s.live) (h2 : s'.next = s.next) : LiveOk s' := by
  unfold LiveOk
  rw [h1, h2]
  exact h

theorem LiveOk.create {s : Conv} (h : LiveOk s) (b : Nat) (op : Op) (args : List Nat) : LiveOk (s.create b op args) := by
  refine ⟨?_, ?_⟩
  · change (s.live ++ [s.next]).Nodup
    rw [List.nodup_append]
    refine ⟨h.1, List.nodup_singleton _, fun a ha c hc => ?_⟩
    rw [List.mem_singleton.1 hc]
    exact Nat.ne_of_lt (h.2 a ha)
  · intro v hv
    change v < s.next + 1
    rcases List.mem_append.1 hv with hv | hv
    · exact Nat.lt_succ_of_lt (h.2 v hv)
    · rw [List.mem_singleton.1 hv]; exact Nat.lt_succ_self _

theorem LiveOk.addDescendant {s s' : Conv} {b d : Nat} (h : LiveOk s) (e : s.addDescendant b d = .ok s') : LiveOk s' := by
  unfold Conv.addDescendant at e
  have := ok_of_ite e
  rw [← this]
  exact h.of_eq rfl rfl

theorem LiveOk.redirect {target new : Nat} : ∀ (as : List Nat) (s s' : Conv), LiveOk s → Conv.redirect target new s as = .ok s' → LiveOk s'
  | [], s, s', h, e => by
    unfold Conv.redirect at e
    cases e
    exact h
  | a :: as, s, s', h, e => by
    unfold Conv.redirect at e
    cases hc : check (!(s.ops a).isEmpty && !(s.desc a).isEmpty) with
    | error x => rw [hc] at e; cases e
    | ok _ =>
      rw [hc] at e
      change (s.replaceDescendant a target new >>= _) = _ at e
      cases hr : s.replaceDescendant a target new with
      | error x => rw [hr] at e; cases e
      | ok t =>
        rw [hr] at e
        refine LiveOk.redirect as t s' ?_ e
        unfold replaceDescendant at hr
        have := ok_of_ite hr
        rw [← this]
        exact h.of_eq rfl rfl

theorem LiveOk.branches {block left right : Nat} : ∀ (vs : List Nat) (s : Conv), LiveOk s → LiveOk (Conv.branches block left right s vs).1
  | [], _, h => h
  | v :: vs, s, h => by
    unfold Conv.branches
    refine LiveOk.branches vs (Conv.branch block left right s v).1 ?_
    exact ((h.create left .copy [(s.node v).args.getD 1 0]).create right .copy [(s.node v).args.getD 2 0]).of_eq rfl rfl

theorem LiveOk.makeBranch {s : Conv} {block c : Nat} {grouped : List Nat} {p : Conv × List Nat × List Nat} (hs : LiveOk s)
    (h : s.makeBranch block c grouped = .ok p) : LiveOk p.1 := by
  unfold Conv.makeBranch at h
  simp only at h
  cases h1 : (Conv.branches block s.blocks (s.blocks + 1) s.newBlock.newBlock grouped).1.addDescendant s.blocks block with
  | error e => rw [h1] at h; cases h
  | ok s1 =>
    rw [h1] at h
    change (s1.addDescendant (s.blocks + 1) block >>= _) = _ at h
    cases h2 : s1.addDescendant (s.blocks + 1) block with
    | error e => rw [h2] at h; cases h
    | ok s2 =>
      rw [h2] at h
      change (((s2.newBlock.create (s.blocks + 2) .jump [c]).visit s2.next).addDescendant (s.blocks + 2) s.blocks >>= _) = _ at h
      cases h4 : ((s2.newBlock.create (s.blocks + 2) .jump [c]).visit s2.next).addDescendant (s.blocks + 2) s.blocks with
      | error e => rw [h4] at h; cases h
      | ok s4 =>
        rw [h4] at h
        change (s4.addDescendant (s.blocks + 2) (s.blocks + 1) >>= _) = _ at h
        cases h5 : s4.addDescendant (s.blocks + 2) (s.blocks + 1) with
        | error e => rw [h5] at h; cases h
        | ok s5 =>
          rw [h5] at h
          change (Conv.redirect block (s.blocks + 2) s5 _ >>= _) = _ at h
          cases h6 : Conv.redirect block (s.blocks + 2) s5 ((Conv.branches block s.blocks (s.blocks + 1) s.newBlock.newBlock grouped).1.anc block) with
          | error e => rw [h6] at h; cases h
          | ok s6 =>
            rw [h6] at h
            cases h
            have k1 : LiveOk (Conv.branches block s.blocks (s.blocks + 1) s.newBlock.newBlock grouped).1 := LiveOk.branches grouped s.newBlock.newBlock (hs.of_eq rfl rfl)
            have k2 := (k1.addDescendant h1).addDescendant h2
            have k2' : LiveOk s2.newBlock := k2.of_eq rfl rfl
            have k3 : LiveOk ((s2.newBlock.create (s.blocks + 2) .jump [c]).visit s2.next) := (k2'.create (s.blocks + 2) .jump [c]).of_eq rfl rfl
            exact LiveOk.redirect _ _ _ ((k3.addDescendant h4).addDescendant h5) h6

theorem LiveOk.drain {convert : Bool} {block : Nat} : ∀ (n : Nat) (s : Conv) (queue deferred conds : List Nat) (p : Conv × List Nat × List Nat),
    LiveOk s → Conv.drain convert block n s queue deferred conds = .ok p → LiveOk p.1
  | 0, s, [], deferred, conds, p, hs, h => by unfold Conv.drain at h; cases h; exact hs
  | n + 1, s, [], deferred, conds, p, hs, h => by unfold Conv.drain at h; cases h; exact hs
  | 0, s, _ :: _, _, _, p, _, h => by unfold Conv.drain at h; cases h
  | n + 1, s, top :: queue, deferred, conds, p, hs, h => by
    unfold Conv.drain at h
    by_cases h1 : s.visited top = true
    · rw [if_pos h1] at h; exact LiveOk.drain n s queue deferred conds p hs h
    rw [if_neg h1] at h
    by_cases h2 : (!s.allVisited top) = true
    · rw [if_pos h2] at h; cases h
    rw [if_neg h2] at h
    by_cases h3 : (!s.insertable top block) = true
    · rw [if_pos h3] at h; exact LiveOk.drain n s _ _ _ p hs h
    rw [if_neg h3] at h
    by_cases h4 : (s.node top).op = .cond ∧ convert = true
    · rw [if_pos h4] at h; exact LiveOk.drain n s _ _ _ p hs h
    rw [if_neg h4] at h
    have hp : LiveOk (s.place top block) := hs.of_eq rfl rfl
    exact LiveOk.drain n _ _ _ _ p hp h

theorem LiveOk.process {convert : Bool} : ∀ (n : Nat) (s : Conv) (queue : List Nat) (block : Nat) (deferred : List Nat) (p : Conv × Nat × List Nat),
    LiveOk s → Conv.process convert n s queue block deferred = .ok p → LiveOk p.1
  | 0, _, _, _, _, p, _, h => by unfold Conv.process at h; cases h
  | n + 1, s, queue, block, deferred, p, hs, h => by
    unfold Conv.process at h
    cases h1 : Conv.drain convert block (s.turns queue) s queue deferred [] with
    | error e => rw [h1] at h; cases h
    | ok d =>
      rw [h1] at h
      have k1 := LiveOk.drain _ _ _ _ _ _ hs h1
      change (if d.2.2 = [] then _ else _) = _ at h
      by_cases hd : d.2.2 = []
      · rw [if_pos hd] at h; cases h; exact k1
      rw [if_neg hd] at h
      change (d.1.makeBranch block _ _ >>= _) = _ at h
      cases h2 : d.1.makeBranch block (d.1.commonCondition (sortedConds d.2.2))
          ((sortedConds d.2.2).filter fun v => d.1.firstOperand v = d.1.commonCondition (sortedConds d.2.2)) with
      | error e => rw [h2] at h; cases h
      | ok b =>
        rw [h2] at h
        have k2 := k1.makeBranch h2
        change (Conv.process convert n b.1 b.2.1 d.1.blocks [] >>= _) = _ at h
        cases h3 : Conv.process convert n b.1 b.2.1 d.1.blocks [] with
        | error e => rw [h3] at h; cases h
        | ok l =>
          rw [h3] at h
          have k3 := LiveOk.process n _ _ _ _ _ k2 h3
          change (Conv.process convert n l.1 b.2.2 (d.1.blocks + 1) l.2.2 >>= _) = _ at h
          cases h4 : Conv.process convert n l.1 b.2.2 (d.1.blocks + 1) l.2.2 with
          | error e => rw [h4] at h; cases h
          | ok r =>
            rw [h4] at h
            exact LiveOk.process n _ _ _ _ _ (LiveOk.process n _ _ _ _ _ k3 h4) h

theorem LiveOk.optionalOutputs {convert : Bool} {n : Nat} : ∀ (vs : List (Nat × Nat)) (s : Conv) (b : Nat) (p : Conv × Nat), LiveOk s →
    Conv.optionalOutputs convert n s b vs = .ok p → LiveOk p.1
  | [], s, b, p, hs, h => by unfold Conv.optionalOutputs at h; cases h; exact hs
  | (v, k) :: vs, s, b, p, hs, h => by
    unfold Conv.optionalOutputs at h
    cases h0 : optionalOutput convert n s b v k with
    | error e => rw [h0] at h; cases h
    | ok q =>
      rw [h0] at h
      refine LiveOk.optionalOutputs vs q.1 q.2 p ?_ h
      unfold optionalOutput at h0
      cases h1 : s.newBlock.addDescendant s.blocks b with
      | error e => rw [h1] at h0; cases h0
      | ok s1 =>
        rw [h1] at h0
        have hs0 : LiveOk s.newBlock := hs.of_eq rfl rfl
        have k1 := hs0.addDescendant h1
        have k1' : LiveOk s1.newBlock := k1.of_eq rfl rfl
        have k2 := (k1'.create (s.blocks + 1) (.outputRequired k) []).create (s.blocks + 1) .jump [s1.next]
        change (((s1.newBlock.create (s.blocks + 1) (.outputRequired k) []).create (s.blocks + 1) .jump [s1.next]).addDescendant (s.blocks + 1) s.blocks >>= _) = _ at h0
        cases h2 : ((s1.newBlock.create (s.blocks + 1) (.outputRequired k) []).create (s.blocks + 1) .jump [s1.next]).addDescendant (s.blocks + 1) s.blocks with
        | error e => rw [h2] at h0; cases h0
        | ok s3 =>
          rw [h2] at h0
          change (s3.addDescendant (s.blocks + 1) b >>= _) = _ at h0
          cases h3 : s3.addDescendant (s.blocks + 1) b with
          | error e => rw [h3] at h0; cases h0
          | ok s4 =>
            rw [h3] at h0
            change (Conv.process convert n s4 [v] s.blocks [] >>= _) = _ at h0
            cases h4 : Conv.process convert n s4 [v] s.blocks [] with
            | error e => rw [h4] at h0; cases h0
            | ok p1 =>
              rw [h4] at h0
              change (Conv.process convert n p1.1 p1.2.2 (s.blocks + 1) [] >>= _) = _ at h0
              cases h5 : Conv.process convert n p1.1 p1.2.2 (s.blocks + 1) [] with
              | error e => rw [h5] at h0; cases h0
              | ok q1 =>
                rw [h5] at h0
                change (check q1.2.2.isEmpty >>= _) = _ at h0
                cases h6 : check q1.2.2.isEmpty with
                | error e => rw [h6] at h0; cases h0
                | ok _ =>
                  rw [h6] at h0
                  cases h0
                  exact LiveOk.process _ _ _ _ _ _ (LiveOk.process _ _ _ _ _ _ ((k2.addDescendant h2).addDescendant h3) h4) h5

/-- In the result every value is listed once. -/
theorem convert_live {g : Graph} (hg : Input g) {usage : Nat → Usage} {ternaries : Bool} {p : Conv × Nat} (h : convert g usage ternaries = .ok p) :
    p.1.live.Nodup := by
  have h0 : LiveOk (init g).newBlock := by
    refine ⟨((g.ops.perm_insertionSort (· ≤ ·)).nodup_iff).2 hg.wf.nodup, ?_⟩
    exact (inv_init (usage := usage) (ternaries := ternaries) hg).lt
  unfold convert at h
  simp only at h
  cases h1 : process ternaries ((init g).live.length + 1) (init g).newBlock ((init g).savesOf usage .returnValue ++ (init g).savesOf usage .output) 0 [] with
  | error e => rw [h1] at h; cases h
  | ok q =>
    rw [h1] at h
    have k1 := LiveOk.process _ _ _ _ _ _ h0 h1
    change (check q.2.2.isEmpty >>= _) = _ at h
    cases h2 : check q.2.2.isEmpty with
    | error e => rw [h2] at h; cases h
    | ok _ =>
      rw [h2] at h
      change (optionalOutputs ternaries _ q.1 q.2.1 _ >>= _) = _ at h
      cases h3 : optionalOutputs ternaries ((init g).live.length + 1) q.1 q.2.1
          (((init g).savesOf usage .optional).filterMap fun v => (saveKey ((init g).node v).op).map fun k => (v, k)) with
      | error e => rw [h3] at h; cases h
      | ok r =>
        rw [h3] at h
        have k2 := LiveOk.optionalOutputs _ _ _ _ k1 h3
        change (check _ >>= _) = _ at h
        cases h4 : check (((List.range r.1.blocks).filter fun b => (r.1.anc b).isEmpty).length == 1) with
        | error e => rw [h4] at h; cases h
        | ok _ =>
          rw [h4] at h
          change (check _ >>= _) = _ at h
          cases h5 : check ((r.1.eliminateCopies (List.range r.1.blocks)).live.all fun v =>
              (r.1.eliminateCopies (List.range r.1.blocks)).parent v ≠ none || ((r.1.eliminateCopies (List.range r.1.blocks)).consumers v).isEmpty) with
          | error e => rw [h5] at h; cases h
          | ok _ =>
            rw [h5] at h
            cases h
            rw [(eliminateCopies_same _ _).1]
            exact k2.1

end Wf.Gen
