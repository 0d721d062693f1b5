import Verif.Gen.NameSim
import Verif.Gen.AstProps

/-!
# The keys of the statements (used in proofs)

The statements name only outputs of the program, each in the way that the signature says.
-/

namespace Wf.Gen

open Conv

section flow

variable {K : Nat → Prop}

/-- Tests for outputs have keys with `K`. -/
def KeysOk (K : Nat → Prop) (s : Conv) : Prop := ∀ v ∈ s.live, ∀ k, (s.node v).op = .outputRequired k → K k

theorem KeysOk.of_eq {s s' : Conv} (h : KeysOk K s) (h1 : s'.live = s.live) (h2 : s'.node = s.node) : KeysOk K s' := by
  unfold KeysOk
  rw [h1, h2]
  exact h

theorem KeysOk.create {s : Conv} (h : KeysOk K s) (b : Nat) (op : Op) (args : List Nat) (ho : ∀ k, op = .outputRequired k → K k) : KeysOk K (s.create b op args) := by
  intro v hv k hk
  change ((updateAt s.node s.next (mkNode op args)) v).op = _ at hk
  by_cases hn : v = s.next
  · subst hn
    rw [updateAt_same, mkNode] at hk
    exact ho k hk
  · rw [updateAt_ne _ _ hn] at hk
    rcases List.mem_append.1 hv with hv | hv
    · exact h v hv k hk
    · exact absurd (List.mem_singleton.1 hv) hn

theorem KeysOk.setPhi {s : Conv} (h : KeysOk K s) {v : Nat} {args : List Nat} : KeysOk K { s with node := updateAt s.node v (mkNode .phi args) } := by
  intro u hu k hk
  by_cases hn : u = v
  · subst hn
    simp only [updateAt_same, mkNode] at hk
    cases hk
  · simp only [updateAt_ne _ _ hn] at hk
    exact h u hu k hk

theorem KeysOk.addDescendant {s s' : Conv} {b d : Nat} (h : KeysOk K s) (e : s.addDescendant b d = .ok s') : KeysOk K s' := by
  unfold Conv.addDescendant at e
  have := ok_of_ite e
  rw [← this]
  exact h.of_eq rfl rfl

theorem KeysOk.dropCopies : ∀ (l : List Nat) (s : Conv), KeysOk K s → KeysOk K (s.dropCopies l).1
  | [], _, h => h
  | v :: vs, s, h => by
    unfold Conv.dropCopies
    split
    · refine KeysOk.dropCopies vs _ ?_
      intro u hu k hk
      exact h u hu k (by rw [← drop_op s v (s.firstOperand v) u]; exact hk)
    · exact KeysOk.dropCopies vs s h

theorem KeysOk.eliminate : ∀ (bs : List Nat) {s : Conv}, KeysOk K s → KeysOk K (s.eliminateCopies bs)
  | [], _, h => h
  | b :: bs, s, h => by
    unfold Conv.eliminateCopies
    exact KeysOk.eliminate bs ((KeysOk.dropCopies (s.ops b) s h).of_eq rfl rfl)

theorem KeysOk.redirect {target new : Nat} : ∀ (as : List Nat) (s s' : Conv), KeysOk K s → Conv.redirect target new s as = .ok s' → KeysOk K s'
  | [], s, s', h, e => by
    unfold Conv.redirect at e
    cases e
    exact h
  | a :: as, s, s', h, e => by
    unfold Conv.redirect at e
    cases hc : check (!(s.ops a).isEmpty && !(s.desc a).isEmpty) with
    | error x => rw [hc] at e; cases e
    | ok _ =>
      rw [hc] at e
      change (s.replaceDescendant a target new >>= _) = _ at e
      cases hr : s.replaceDescendant a target new with
      | error x => rw [hr] at e; cases e
      | ok t =>
        rw [hr] at e
        refine KeysOk.redirect as t s' ?_ e
        unfold replaceDescendant at hr
        have := ok_of_ite hr
        rw [← this]
        exact h.of_eq rfl rfl

theorem KeysOk.branches {block left right : Nat} : ∀ (vs : List Nat) (s : Conv), KeysOk K s → KeysOk K (Conv.branches block left right s vs).1
  | [], _, h => h
  | v :: vs, s, h => by
    unfold Conv.branches
    refine KeysOk.branches vs (Conv.branch block left right s v).1 ?_
    exact (((h.create left .copy [(s.node v).args.getD 1 0] (by simp)).create right .copy [(s.node v).args.getD 2 0] (by simp)).setPhi).of_eq rfl rfl

theorem KeysOk.makeBranch {s : Conv} {block c : Nat} {grouped : List Nat} {p : Conv × List Nat × List Nat} (hs : KeysOk K s)
    (h : s.makeBranch block c grouped = .ok p) : KeysOk K p.1 := by
  unfold Conv.makeBranch at h
  simp only at h
  cases h1 : (Conv.branches block s.blocks (s.blocks + 1) s.newBlock.newBlock grouped).1.addDescendant s.blocks block with
  | error e => rw [h1] at h; cases h
  | ok s1 =>
    rw [h1] at h
    change (s1.addDescendant (s.blocks + 1) block >>= _) = _ at h
    cases h2 : s1.addDescendant (s.blocks + 1) block with
    | error e => rw [h2] at h; cases h
    | ok s2 =>
      rw [h2] at h
      change (((s2.newBlock.create (s.blocks + 2) .jump [c]).visit s2.next).addDescendant (s.blocks + 2) s.blocks >>= _) = _ at h
      cases h4 : ((s2.newBlock.create (s.blocks + 2) .jump [c]).visit s2.next).addDescendant (s.blocks + 2) s.blocks with
      | error e => rw [h4] at h; cases h
      | ok s4 =>
        rw [h4] at h
        change (s4.addDescendant (s.blocks + 2) (s.blocks + 1) >>= _) = _ at h
        cases h5 : s4.addDescendant (s.blocks + 2) (s.blocks + 1) with
        | error e => rw [h5] at h; cases h
        | ok s5 =>
          rw [h5] at h
          change (Conv.redirect block (s.blocks + 2) s5 _ >>= _) = _ at h
          cases h6 : Conv.redirect block (s.blocks + 2) s5 ((Conv.branches block s.blocks (s.blocks + 1) s.newBlock.newBlock grouped).1.anc block) with
          | error e => rw [h6] at h; cases h
          | ok s6 =>
            rw [h6] at h
            cases h
            have k1 : KeysOk K (Conv.branches block s.blocks (s.blocks + 1) s.newBlock.newBlock grouped).1 := KeysOk.branches grouped s.newBlock.newBlock (hs.of_eq rfl rfl)
            have k2 := (k1.addDescendant h1).addDescendant h2
            have k2' : KeysOk K s2.newBlock := k2.of_eq rfl rfl
            have k3 : KeysOk K ((s2.newBlock.create (s.blocks + 2) .jump [c]).visit s2.next) := (k2'.create (s.blocks + 2) .jump [c] (by simp)).of_eq rfl rfl
            exact KeysOk.redirect _ _ _ ((k3.addDescendant h4).addDescendant h5) h6

theorem KeysOk.drain {convert : Bool} {block : Nat} : ∀ (n : Nat) (s : Conv) (queue deferred conds : List Nat) (p : Conv × List Nat × List Nat),
    KeysOk K s → Conv.drain convert block n s queue deferred conds = .ok p → KeysOk K p.1
  | 0, s, [], deferred, conds, p, hs, h => by unfold Conv.drain at h; cases h; exact hs
  | n + 1, s, [], deferred, conds, p, hs, h => by unfold Conv.drain at h; cases h; exact hs
  | 0, s, _ :: _, _, _, p, _, h => by unfold Conv.drain at h; cases h
  | n + 1, s, top :: queue, deferred, conds, p, hs, h => by
    unfold Conv.drain at h
    by_cases h1 : s.visited top = true
    · rw [if_pos h1] at h; exact KeysOk.drain n s queue deferred conds p hs h
    rw [if_neg h1] at h
    by_cases h2 : (!s.allVisited top) = true
    · rw [if_pos h2] at h; cases h
    rw [if_neg h2] at h
    by_cases h3 : (!s.insertable top block) = true
    · rw [if_pos h3] at h; exact KeysOk.drain n s _ _ _ p hs h
    rw [if_neg h3] at h
    by_cases h4 : (s.node top).op = .cond ∧ convert = true
    · rw [if_pos h4] at h; exact KeysOk.drain n s _ _ _ p hs h
    rw [if_neg h4] at h
    have hp : KeysOk K (s.place top block) := hs.of_eq rfl rfl
    exact KeysOk.drain n _ _ _ _ p hp h

theorem KeysOk.process {convert : Bool} : ∀ (n : Nat) (s : Conv) (queue : List Nat) (block : Nat) (deferred : List Nat) (p : Conv × Nat × List Nat),
    KeysOk K s → Conv.process convert n s queue block deferred = .ok p → KeysOk K p.1
  | 0, _, _, _, _, p, _, h => by unfold Conv.process at h; cases h
  | n + 1, s, queue, block, deferred, p, hs, h => by
    unfold Conv.process at h
    cases h1 : Conv.drain convert block (s.turns queue) s queue deferred [] with
    | error e => rw [h1] at h; cases h
    | ok d =>
      rw [h1] at h
      have k1 := KeysOk.drain _ _ _ _ _ _ hs h1
      change (if d.2.2 = [] then _ else _) = _ at h
      by_cases hd : d.2.2 = []
      · rw [if_pos hd] at h; cases h; exact k1
      rw [if_neg hd] at h
      change (d.1.makeBranch block _ _ >>= _) = _ at h
      cases h2 : d.1.makeBranch block (d.1.commonCondition (sortedConds d.2.2))
          ((sortedConds d.2.2).filter fun v => d.1.firstOperand v = d.1.commonCondition (sortedConds d.2.2)) with
      | error e => rw [h2] at h; cases h
      | ok b =>
        rw [h2] at h
        have k2 := k1.makeBranch h2
        change (Conv.process convert n b.1 b.2.1 d.1.blocks [] >>= _) = _ at h
        cases h3 : Conv.process convert n b.1 b.2.1 d.1.blocks [] with
        | error e => rw [h3] at h; cases h
        | ok l =>
          rw [h3] at h
          have k3 := KeysOk.process n _ _ _ _ _ k2 h3
          change (Conv.process convert n l.1 b.2.2 (d.1.blocks + 1) l.2.2 >>= _) = _ at h
          cases h4 : Conv.process convert n l.1 b.2.2 (d.1.blocks + 1) l.2.2 with
          | error e => rw [h4] at h; cases h
          | ok r =>
            rw [h4] at h
            exact KeysOk.process n _ _ _ _ _ (KeysOk.process n _ _ _ _ _ k3 h4) h

theorem KeysOk.optionalOutputs {convert : Bool} {n : Nat} : ∀ (vs : List (Nat × Nat)) (s : Conv) (b : Nat) (p : Conv × Nat), (∀ q ∈ vs, K q.2) → KeysOk K s →
    Conv.optionalOutputs convert n s b vs = .ok p → KeysOk K p.1
  | [], s, b, p, _, hs, h => by unfold Conv.optionalOutputs at h; cases h; exact hs
  | (v, k) :: vs, s, b, p, hvs, hs, h => by
    unfold Conv.optionalOutputs at h
    cases h0 : optionalOutput convert n s b v k with
    | error e => rw [h0] at h; cases h
    | ok q =>
      rw [h0] at h
      refine KeysOk.optionalOutputs vs q.1 q.2 p (fun q hq => hvs q (List.mem_cons_of_mem _ hq)) ?_ h
      unfold optionalOutput at h0
      cases h1 : s.newBlock.addDescendant s.blocks b with
      | error e => rw [h1] at h0; cases h0
      | ok s1 =>
        rw [h1] at h0
        have hs0 : KeysOk K s.newBlock := hs.of_eq rfl rfl
        have k1 := hs0.addDescendant h1
        have k1' : KeysOk K s1.newBlock := k1.of_eq rfl rfl
        have k2 := (k1'.create (s.blocks + 1) (.outputRequired k) [] (by rintro k' hk'; cases hk'; exact hvs _ List.mem_cons_self)).create (s.blocks + 1) .jump [s1.next] (by simp)
        change (((s1.newBlock.create (s.blocks + 1) (.outputRequired k) []).create (s.blocks + 1) .jump [s1.next]).addDescendant (s.blocks + 1) s.blocks >>= _) = _ at h0
        cases h2 : ((s1.newBlock.create (s.blocks + 1) (.outputRequired k) []).create (s.blocks + 1) .jump [s1.next]).addDescendant (s.blocks + 1) s.blocks with
        | error e => rw [h2] at h0; cases h0
        | ok s3 =>
          rw [h2] at h0
          change (s3.addDescendant (s.blocks + 1) b >>= _) = _ at h0
          cases h3 : s3.addDescendant (s.blocks + 1) b with
          | error e => rw [h3] at h0; cases h0
          | ok s4 =>
            rw [h3] at h0
            change (Conv.process convert n s4 [v] s.blocks [] >>= _) = _ at h0
            cases h4 : Conv.process convert n s4 [v] s.blocks [] with
            | error e => rw [h4] at h0; cases h0
            | ok p1 =>
              rw [h4] at h0
              change (Conv.process convert n p1.1 p1.2.2 (s.blocks + 1) [] >>= _) = _ at h0
              cases h5 : Conv.process convert n p1.1 p1.2.2 (s.blocks + 1) [] with
              | error e => rw [h5] at h0; cases h0
              | ok q1 =>
                rw [h5] at h0
                change (check q1.2.2.isEmpty >>= _) = _ at h0
                cases h6 : check q1.2.2.isEmpty with
                | error e => rw [h6] at h0; cases h0
                | ok _ =>
                  rw [h6] at h0
                  cases h0
                  exact KeysOk.process _ _ _ _ _ _ (KeysOk.process _ _ _ _ _ _ ((k2.addDescendant h2).addDescendant h3) h4) h5

/-- In the result only optional outputs are tested. -/
theorem convert_keys {g : Graph} (hg : Input g) {usage : Nat → Usage} {ternaries : Bool} {p : Conv × Nat} (h : convert g usage ternaries = .ok p) :
    KeysOk (fun k => usage k = .optional ∧ Written g usage k) p.1 := by
  have h0 : KeysOk (fun k => usage k = .optional ∧ Written g usage k) (init g).newBlock := by
    intro v hv k hk
    have hv : v ∈ g.ops := (g.ops.perm_insertionSort (· ≤ ·)).mem_iff.1 hv
    exact absurd hk ((hg.conv.flat v hv).2.2 k)
  have hsaves : ∀ q ∈ ((init g).savesOf usage .optional).filterMap fun v => (saveKey ((init g).node v).op).map fun k => (v, k),
      usage q.2 = .optional ∧ Written g usage q.2 := by
    intro q hq
    obtain ⟨v, hv, hk⟩ := List.mem_filterMap.1 hq
    obtain ⟨k, hks, rfl⟩ := Option.map_eq_some_iff.1 hk
    obtain ⟨hv, hu⟩ := List.mem_filter.1 hv
    rw [hks] at hu
    have hu : usage k = .optional := by simpa using hu
    have hv : v ∈ g.ops := (g.ops.perm_insertionSort (· ≤ ·)).mem_iff.1 (List.mem_reverse.1 hv)
    exact ⟨hu, by rw [hu]; simp, v, hv, saveKey_eq hks⟩
  unfold convert at h
  simp only at h
  cases h1 : process ternaries ((init g).live.length + 1) (init g).newBlock ((init g).savesOf usage .returnValue ++ (init g).savesOf usage .output) 0 [] with
  | error e => rw [h1] at h; cases h
  | ok q =>
    rw [h1] at h
    have k1 := KeysOk.process _ _ _ _ _ _ h0 h1
    change (check q.2.2.isEmpty >>= _) = _ at h
    cases h2 : check q.2.2.isEmpty with
    | error e => rw [h2] at h; cases h
    | ok _ =>
      rw [h2] at h
      change (optionalOutputs ternaries _ q.1 q.2.1 _ >>= _) = _ at h
      cases h3 : optionalOutputs ternaries ((init g).live.length + 1) q.1 q.2.1
          (((init g).savesOf usage .optional).filterMap fun v => (saveKey ((init g).node v).op).map fun k => (v, k)) with
      | error e => rw [h3] at h; cases h
      | ok r =>
        rw [h3] at h
        have k2 := KeysOk.optionalOutputs _ _ _ _ hsaves k1 h3
        change (check _ >>= _) = _ at h
        cases h4 : check (((List.range r.1.blocks).filter fun b => (r.1.anc b).isEmpty).length == 1) with
        | error e => rw [h4] at h; cases h
        | ok _ =>
          rw [h4] at h
          change (check _ >>= _) = _ at h
          cases h5 : check ((r.1.eliminateCopies (List.range r.1.blocks)).live.all fun v =>
              (r.1.eliminateCopies (List.range r.1.blocks)).parent v ≠ none || ((r.1.eliminateCopies (List.range r.1.blocks)).consumers v).isEmpty) with
          | error e => rw [h5] at h; cases h
          | ok _ =>
            rw [h5] at h
            cases h
            exact (k2.eliminate _)

end flow

section ast

open Text

variable {info : AstInfo} {keys : Nat → Prop} {s : Conv}

theorem allKeyed_append {usage : Nat → Usage} : ∀ {a b : List Stmt}, AllKeyed usage keys a → AllKeyed usage keys b → AllKeyed usage keys (a ++ b)
  | [], _, _, hb => hb
  | _ :: _, _, ha, hb => by
    rw [AllKeyed] at ha
    rw [List.cons_append, AllKeyed]
    exact ⟨ha.1, allKeyed_append ha.2 hb⟩

theorem allKeyed_of {usage : Nat → Usage} : ∀ {a : List Stmt}, (∀ st ∈ a, st.Keyed usage keys) → AllKeyed usage keys a
  | [], _ => by rw [AllKeyed]; trivial
  | s :: ss, h => by
    rw [AllKeyed]
    exact ⟨h s List.mem_cons_self, allKeyed_of fun st hst => h st (List.mem_cons_of_mem _ hst)⟩

theorem visitOps_keyed {fuel : Nat} : ∀ (l : List Nat) (d : Nat → Bool) {p : (Nat → Bool) × List Stmt × List (Nat × AExpr)}, s.visitOps info fuel d l = .ok p →
    AllKeyed info.usage keys p.2.1
  | [], d, p, h => by
    unfold visitOps at h
    cases h
    rw [AllKeyed]
    trivial
  | v :: vs, d, p, h => by
    unfold visitOps at h
    by_cases hs : silent (s.node v).op = true
    · rw [if_pos hs] at h
      exact visitOps_keyed vs d h
    rw [if_neg hs] at h
    cases h1 : s.visitOne info fuel d v with
    | error e => simp [h1] at h
    | ok q =>
    simp only [h1] at h
    cases h2 : visitOps info s fuel q.1 vs with
    | error e => simp [h2] at h
    | ok r =>
    simp only [h2] at h
    cases h
    refine allKeyed_append ?_ (visitOps_keyed vs q.1 h2)
    unfold visitOne at h1
    split at h1
    · cases h1
    split at h1
    · cases h1
    split at h1
    · split at h1
      · cases h1
      · cases h1
        exact allKeyed_of (by simp [Stmt.Keyed])
    · split at h1
      · cases h1
      · cases h1
        exact allKeyed_of (by simp)

theorem outputs_keyed {fuel b : Nat} {d : Nat → Bool} (hk : ∀ v ∈ s.ops b, ∀ key, (s.node v).op = .save key → info.usage key ≠ .returnValue → keys key) :
    ∀ (l : List Nat) {ss : List Stmt}, (∀ v ∈ l, v ∈ s.ops b) → s.outputs info fuel d b l = .ok ss → AllKeyed info.usage keys ss
  | [], ss, _, h => by
    unfold outputs at h
    cases h
    rw [AllKeyed]
    trivial
  | v :: vs, ss, hl, h => by
    unfold outputs at h
    cases h1 : saveKey (s.node v).op with
    | none =>
      simp only [h1] at h
      exact outputs_keyed hk vs (fun u hu => hl u (List.mem_cons_of_mem _ hu)) h
    | some key =>
    simp only [h1] at h
    cases h2 : s.outputOne info fuel d b key (s.node v).args with
    | error e => simp [h2] at h
    | ok st =>
    simp only [h2] at h
    cases h3 : outputs info s fuel d b vs with
    | error e => simp [h3] at h
    | ok rest =>
    simp only [h3] at h
    cases h
    rw [AllKeyed]
    refine ⟨?_, outputs_keyed hk vs (fun u hu => hl u (List.mem_cons_of_mem _ hu)) h3⟩
    have hkey := hk v (hl v List.mem_cons_self) key (saveKey_eq h1)
    unfold outputOne at h2
    split at h2
    · split at h2
      · cases h2
      · split at h2
        · rename_i hu
          split at h2
          · cases h2
            rw [Stmt.Keyed]
            exact hu
          · cases h2
        · rename_i hu
          have : ∀ e, (Stmt.output key e).Keyed info.usage keys := fun e => by rw [Stmt.Keyed]; exact ⟨hu, hkey hu⟩
          split at h2
          · cases h2; exact this _
          · split at h2
            · cases h2; exact this _
            · cases h2
          · split at h2
            · cases h2; exact this _
            · cases h2
    · cases h2

theorem blockBody_keyed {b : Nat} {d : Nat → Bool} {p : (Nat → Bool) × List Stmt} (hk : ∀ b, ∀ v ∈ s.ops b, ∀ key, (s.node v).op = .save key → info.usage key ≠ .returnValue → keys key)
    (h : s.blockBody info d b = .ok p) : AllKeyed info.usage keys p.2 := by
  unfold blockBody at h
  split at h
  · cases h
  split at h
  · cases h
  rename_i q hq
  split at h
  · cases h
  rename_i os ho
  cases h
  refine allKeyed_append (allKeyed_append (visitOps_keyed _ _ hq) (allKeyed_of ?_)) (outputs_keyed (hk b) _ (fun _ hv => hv) ho)
  intro st hst
  obtain ⟨q, _, rfl⟩ := List.mem_map.1 hst
  trivial

theorem processBlock_keyed (hk : ∀ b, ∀ v ∈ s.ops b, ∀ key, (s.node v).op = .save key → info.usage key ≠ .returnValue → keys key)
    (hopt : ∀ b c key, processBlock.jumpTarget s b = some c → (s.node c).op = .outputRequired key → info.usage key = .optional ∧ keys key) :
    ∀ (n : Nat) (st : AstState) (b : Nat) {p : AstState × List Stmt}, s.processBlock info n st b = .ok p → AllKeyed info.usage keys p.2
  | 0, _, _, p, h => by unfold processBlock at h; cases h
  | n + 1, st, b, p, h => by
    unfold processBlock at h
    by_cases hb : b ∈ st.blocked
    · rw [if_pos hb] at h
      cases h
      rw [AllKeyed]
      trivial
    rw [if_neg hb] at h
    cases h1 : s.blockBody info st.declared b with
    | error e => simp [h1] at h
    | ok body =>
    simp only [h1] at h
    have k1 := blockBody_keyed (keys := keys) hk h1
    have kd : ∀ m, AllKeyed info.usage keys ((s.declaredPhis m).map Stmt.declare) := fun m => allKeyed_of fun st hst => by
      obtain ⟨q, _, rfl⟩ := List.mem_map.1 hst
      trivial
    cases h2 : s.desc b with
    | nil =>
      simp only [h2] at h
      cases h
      exact k1
    | cons d ds =>
    simp only [h2] at h
    split at h
    · cases h3 : processBlock info s n ⟨body.1, st.blocked⟩ d with
      | error e => simp [h3] at h
      | ok r =>
      simp only [h3] at h
      cases h
      exact allKeyed_append k1 (processBlock_keyed hk hopt n _ _ h3)
    · rename_i e _
      cases h3 : s.mergePoint d e with
      | error e => simp [h3] at h
      | ok m =>
      simp only [h3] at h
      split at h
      · cases h
      rename_i t ht
      have k2 := processBlock_keyed hk hopt n _ _ ht
      split at h
      · cases h
      rename_i c hc
      split at h
      · rename_i key hop
        split at h
        · cases h
        rename_i r hr
        cases h
        refine allKeyed_append (allKeyed_append (allKeyed_append k1 (kd m)) (allKeyed_of fun st hst => ?_)) (processBlock_keyed hk hopt n _ _ hr)
        cases List.mem_singleton.1 hst
        rw [Stmt.Keyed]
        exact ⟨(hopt b c key hc hop).1, (hopt b c key hc hop).2, k2⟩
      · split at h
        · cases h
        rename_i f hf
        split at h
        · cases h
        split at h
        · cases h
        rename_i r hr
        cases h
        refine allKeyed_append (allKeyed_append (allKeyed_append k1 (kd m)) (allKeyed_of fun st hst => ?_)) (processBlock_keyed hk hopt n _ _ hr)
        cases List.mem_singleton.1 hst
        rw [Stmt.Keyed]
        exact ⟨k2, processBlock_keyed hk hopt n _ _ hf⟩
    · cases h

/-- The statements name outputs of the program, as the signature says. -/
theorem createAst_keyed {g : Graph} (hw : WF g) (ho : InOrder g) (hc : Convertible g) (ht : Typed info g) (hown : OwnStructs info g) {ternaries : Bool} {s : Conv} {entry : Nat}
    {ss : List Stmt} (h : convert g info.usage ternaries = .ok (s, entry)) (ha : createAst info s entry = .ok ss) : AllKeyed info.usage (Written g info.usage) ss := by
  obtain ⟨s', W, e, hfine⟩ := fine_of ⟨hw, ho, hc⟩ ht hown ternaries
  rw [h] at e
  cases e
  obtain ⟨_, hf⟩ := hfine Int numInterp (fun x => x = 1) (by intro c a b; simp [numInterp]) (fun _ _ _ => rfl)
  have hkeys := convert_keys ⟨hw, ho, hc⟩ h
  unfold createAst at ha
  cases hp : s.processBlock info (s.blocks + 1) ⟨fun _ => false, []⟩ W.entry with
  | error e => rw [hp] at ha; cases ha
  | ok p =>
  rw [hp] at ha
  cases ha
  refine processBlock_keyed ?_ ?_ _ _ _ hp
  · intro b v hv key hop hu
    obtain ⟨h1, h2, _⟩ := hf.clean.saves b v hv key hop
    exact ⟨hu, v, h1, h2⟩
  · intro b c key hj hop
    unfold processBlock.jumpTarget at hj
    obtain ⟨u, hu, hcu⟩ := Option.bind_eq_some_iff.1 hj
    have hcu : c ∈ (s.node u).args := List.mem_of_head? hcu
    obtain ⟨⟨d, hd⟩, _⟩ := hf.arg (List.mem_of_getLast? hu) hcu
    exact hkeys c (hf.placed.live d c hd) key hop

/-- The statements, what they do, and where the tests for optional outputs are. -/
theorem ast_result {g : Graph} (hw : WF g) (ho : InOrder g) (hc : Convertible g) (ht : Typed info g) (hown : OwnStructs info g) {ternaries : Bool} {s : Conv} {entry : Nat}
    {ss : List Stmt} (h : convert g info.usage ternaries = .ok (s, entry)) (ha : createAst info s entry = .ok ss)
    {V : Type} [Arith V] {I : Interp V} {truth : V → Bool} (hsel : Selects I truth) (hget : ∀ i, info.scalarGet i = true → ∀ x, I.f (.get i) [x] = x) :
    ∃ m, runAll I truth ss .start = some m ∧ (m.out.map (·.1)).Nodup ∧
      (∀ key x, (key, x) ∈ m.out ↔ Writes I g key x ∧ (info.usage key = .optional → truth (I.f (.outputRequired key) []) = true)) ∧
      ∀ key, Written g info.usage key → info.usage key = .optional →
        ∃ pre body post m', ss = pre ++ .optional key body :: post ∧ runAll I truth pre .start = some m' ∧ m'.returned = false := by
  obtain ⟨s', W, e, hfine⟩ := fine_of ⟨hw, ho, hc⟩ ht hown ternaries
  rw [h] at e
  cases e
  obtain ⟨_, hf⟩ := hfine V I truth hsel hget
  obtain ⟨ss', hss, m, h1, h2, h3, h4⟩ := hf.result ht.once
  rw [ha] at hss
  cases hss
  refine ⟨m, h1, h2, h3, ?_⟩
  rintro key ⟨_, v, hv, hop⟩ hu
  obtain ⟨b, hb, hsv⟩ := hf.clean.all v hv key hop
  obtain ⟨_, _, _, hex⟩ := hf.clean.saves b v hb key hsv
  rw [if_pos hu] at hex
  exact h4 b key hex

end ast

end Wf.Gen
