import Verif.Gen.FlowProcess
import Verif.Gen.FlowLast

/-!
# The whole conversion keeps the invariant and places every value (used in proofs)
-/

namespace Wf.Gen

open Conv

variable {g : Graph} {usage : Nat → Usage} {ternaries : Bool} {s s' : Conv}

theorem mem_init_live {v : Nat} : v ∈ (init g).live ↔ v ∈ g.ops := by simp [init, List.mem_insertionSort]

theorem le_getLast {l : List Nat} (h : l.Pairwise (· ≤ ·)) {v m : Nat} (hv : v ∈ l) (hm : l.getLast? = some m) : v ≤ m := by
  induction l with
  | nil => simp at hv
  | cons a l ih =>
    rw [List.pairwise_cons] at h
    cases l with
    | nil => simp at hv hm; omega
    | cons b l =>
      have hm' : (b :: l).getLast? = some m := by rw [← hm]; simp [List.getLast?_cons]
      rcases List.mem_cons.1 hv with rfl | hv
      · exact h.1 m (List.mem_of_getLast? hm')
      · exact ih h.2 hv hm'

theorem init_lt {v : Nat} (hv : v ∈ (init g).live) : v < (init g).next := by
  have hs := List.pairwise_insertionSort (· ≤ ·) g.ops
  change v ∈ g.ops.insertionSort (· ≤ ·) at hv
  simp only [init]
  cases hm : (g.ops.insertionSort (· ≤ ·)).getLast? with
  | none => rw [List.getLast?_eq_none_iff] at hm; rw [hm] at hv; simp at hv
  | some m =>
    have := le_getLast hs hv hm
    simp only
    omega

theorem inv_init (hg : Input g) : Inv g usage ternaries (init g).newBlock (.last 0) := by
  refine ⟨fun v hv => mem_init_live.2 hv, fun v hv => init_lt hv, ?_, ?_, fun v _ _ => rfl, ?_, ?_, ?_, ?_, ?_, ?_, ?_, by simp [Reg.blocks], ?_, trivial,
    rfl, rfl, ?_, ?_⟩
  · intro v hv a ha
    exact mem_init_live.2 (hg.wf.closed v (mem_init_live.1 hv) a ha)
  · intro v hv hn
    exact absurd (mem_init_live.1 hv) hn
  · intro v _ hv; simp [init, newBlock] at hv
  · intro v _; simp [init, newBlock]
  · intro v hv; simp [init, newBlock] at hv
  · intro b v
    by_cases hb : b = 0 <;> simp [init, newBlock, updateAt, hb]
  · intro b
    by_cases hb : b = 0 <;> simp [init, newBlock, updateAt, hb]
  · intro a _ hv; simp [init, newBlock] at hv
  · intro b; simp [Reg.blocks, init, newBlock]
  · intro v b hv; simp [init, newBlock] at hv
  · simp [Scoped, init, newBlock, OpsOk]
  · intro v _ k b _ hv; simp [init, newBlock] at hv

theorem lazy_init (hg : Input g) : Lazy g (init g).newBlock (.last 0) := by
  refine ⟨fun w _ _ _ L hL => by simp [Reg.arms] at hL, fun w hw hs => ?_, fun x hx hn => absurd (mem_init_live.1 hx) hn, trivial, fun b v hv => ?_⟩
  rcases hg.conv.used w hw with ⟨k, hk⟩ | ⟨u, hu, ha⟩
  · exact absurd hk (hs k)
  · exact ⟨u, mem_init_live.2 hu, ha⟩
  · exfalso
    by_cases hb : b = 0 <;> simp [init, newBlock, updateAt, hb] at hv

theorem mem_savesOf {u : Usage} {v : Nat} : v ∈ (init g).savesOf usage u ↔ v ∈ g.ops ∧ ∃ k, (g.node v).op = .save k ∧ usage k = u := by
  simp only [savesOf, List.mem_filter, List.mem_reverse, mem_init_live]
  have hn : (init g).node v = g.node v := rfl
  rw [hn]
  refine and_congr_right fun _ => ?_
  cases (g.node v).op <;> simp [saveKey]

/-- Outputs are ready. -/
theorem Inv.save_ready (hg : Input g) {W : Reg} (h : Inv g usage ternaries s W) {v k : Nat} (hv : v ∈ g.ops) (hk : (g.node v).op = .save k) : Ready g s v :=
  ⟨hv, allVisited_iff.2 fun _ hu ha => absurd hk (h.arg_not_save hg hu hv ha k)⟩

theorem condsLeft_le_length (g : Graph) (s : Conv) : condsLeft g s ≤ g.ops.length := List.length_filter_le _ _

theorem init_live_length (g : Graph) : (init g).live.length = g.ops.length := by simp [init, List.length_insertionSort]

/-- Nothing is outside the whole program. -/
theorem Processed.none_deferred {R R' : Reg} {queue d : List Nat} (h : Processed g usage ternaries s s' [] R R' queue d) : d = [] := by
  rw [List.eq_nil_iff_forall_not_mem]
  intro q hq
  obtain ⟨_, ⟨u, _, _, b, hp, hb⟩, _⟩ := h.deferred q hq
  exact hb (h.inv.parent u b hp)

/-- The blocks for an optional output. -/
theorem optional_blocks {W : Reg} (h : Inv g usage ternaries s W) (hz : Lazy g s W) (key : Nat) (s4 : Conv)
    (hnode : s4.node = updateAt (updateAt s.node s.next ⟨.outputRequired key, []⟩) (s.next + 1) ⟨.jump, [s.next]⟩) (hlive : s4.live = s.live ++ [s.next] ++ [s.next + 1])
    (hnext : s4.next = s.next + 2) (hparent : s4.parent = updateAt (updateAt s.parent s.next (some (s.blocks + 1))) (s.next + 1) (some (s.blocks + 1)))
    (hvis : s4.visited = s.visited) (hops : ∀ b, s4.ops b = if b = s.blocks + 1 then [s.next, s.next + 1] else s.ops b) (hb : s4.blocks = s.blocks + 2)
    (hdJ : s4.desc (s.blocks + 1) = [s.blocks, W.entry]) (hdE : s4.desc s.blocks = [W.entry]) (hd : ∀ b < s.blocks, s4.desc b = s.desc b)
    (haJ : s4.anc (s.blocks + 1) = []) (haE : s4.anc s.blocks = [s.blocks + 1]) (haW : s4.anc W.entry = [s.blocks, s.blocks + 1])
    (ha : ∀ b < s.blocks, b ≠ W.entry → s4.anc b = s.anc b) :
    Inv g usage ternaries s4 (.opt (s.blocks + 1) key (.last s.blocks) W) ∧ Ext g s s4 ∧ (∀ p, Complete g s p → Complete g s4 p) ∧
      Lazy g s4 (.opt (s.blocks + 1) key (.last s.blocks) W) := by
  have hlt : ∀ v ∈ g.ops, v < s.next := fun v hv => h.lt v (h.mem v hv)
  have old : ∀ v, v < s.next → s4.node v = s.node v ∧ s4.parent v = s.parent v := by
    intro v hv
    rw [hnode, hparent, updateAt_ne _ _ (by omega), updateAt_ne _ _ (by omega), updateAt_ne _ _ (by omega), updateAt_ne _ _ (by omega)]
    exact ⟨rfl, rfl⟩
  have n1 : s4.node s.next = ⟨.outputRequired key, []⟩ := by rw [hnode, updateAt_ne _ _ (by omega), updateAt_same]
  have n2 : s4.node (s.next + 1) = ⟨.jump, [s.next]⟩ := by rw [hnode, updateAt_same]
  have p1 : s4.parent s.next = some (s.blocks + 1) := by rw [hparent, updateAt_ne _ _ (by omega), updateAt_same]
  have p2 : s4.parent (s.next + 1) = some (s.blocks + 1) := by rw [hparent, updateAt_same]
  have pab : ∀ v, s.next + 2 ≤ v → s4.parent v = none := by
    intro v hv
    rw [hparent, updateAt_ne _ _ (by omega), updateAt_ne _ _ (by omega)]
    by_contra hc
    have := h.lt v (h.live v hc)
    omega
  have live : ∀ v, v ∈ s4.live ↔ v ∈ s.live ∨ v = s.next ∨ v = s.next + 1 := by
    intro v; rw [hlive]; simp [or_assoc]
  have hopl : ∀ d, ∀ u ∈ s.ops d, u ∈ s.live := fun d u hu => h.live u (by rw [(h.ops d u).1 hu]; simp)
  have hall : ∀ a ∈ g.ops, (s4.allVisited a = true ↔ s.allVisited a = true) := by
    intro a hag
    rw [allVisited_iff, allVisited_iff]
    constructor
    · intro hx u hu hau
      rw [← hvis]
      exact hx u ((live u).2 (.inl hu)) (by rw [(old u (h.lt u hu)).1]; exact hau)
    · intro hx u hu hau
      rw [hvis]
      rcases (live u).1 hu with h1 | h1 | h1
      · exact hx u h1 (by rw [← (old u (h.lt u h1)).1]; exact hau)
      · rw [h1, n1] at hau; simp at hau
      · rw [h1, n2] at hau
        have := hlt a hag
        rw [List.mem_singleton.1 hau] at this
        omega
  have hE : Ext g s s4 := by
    refine ⟨fun v hv => by rw [hvis]; exact hv, ?_, ?_, fun v hv => (live v).2 (.inl hv), ?_, fun a hag => (hall a hag).2, by omega⟩
    · intro v b hv
      rw [(old v (h.lt v (h.live v (by rw [hv]; simp)))).2]; exact hv
    · intro v hv
      exact (old v (h.lt v (h.live v hv))).1
    · intro b v hv
      rw [hops, if_neg]
      · exact hv
      · rintro rfl
        have := (h.blocks _).1 (h.parent v _ ((h.ops _ v).1 hv))
        omega
  have hblk : ∀ b ∈ W.blocks, b < s.blocks := fun b hm => (h.blocks b).1 hm
  refine ⟨⟨fun v hv => (live v).2 (.inl (h.mem v hv)), ?_, ?_, ?_, ?_, ?_, ?_, ?_, ?_, ?_, ?_, ?_, ?_, ?_, ?_, haJ, ?_, ?_, ?_⟩, hE, ?_, ?_⟩
  · intro v hv
    rw [hnext]
    rcases (live v).1 hv with h1 | h1 | h1
    · have := h.lt v h1; omega
    · omega
    · omega
  · intro v hv a hav
    rcases (live v).1 hv with h1 | h1 | h1
    · rw [(old v (h.lt v h1)).1] at hav
      exact (live _).2 (.inl (h.closed v h1 a hav))
    · rw [h1, n1] at hav; simp at hav
    · rw [h1, n2] at hav
      rw [List.mem_singleton.1 hav]
      exact (live _).2 (.inr (.inl rfl))
  · intro v hv hvg
    rcases (live v).1 hv with h1 | h1 | h1
    · obtain ⟨m1, m2⟩ := h.made v h1 hvg
      obtain ⟨o1, o2⟩ := old v (h.lt v h1)
      refine ⟨by rw [o2]; exact m1, ?_⟩
      rw [o1, hvis]
      rcases m2 with m2 | m2 | m2 | ⟨u, k, m2, m3, m4⟩
      · exact .inl m2
      · exact .inr (.inl m2)
      · exact .inr (.inr (.inl m2))
      · refine .inr (.inr (.inr ⟨u, k, m2, m3, ?_⟩))
        rw [(old u (h.lt u (h.closed v h1 u (by rw [m2]; simp)))).1]
        exact m4
    · rw [h1]
      exact ⟨by rw [p1]; simp, .inr (.inr (.inl ⟨key, n1⟩))⟩
    · rw [h1]
      exact ⟨by rw [p2]; simp, .inr (.inr (.inr ⟨s.next, key, n2, fun hm => by have := hlt _ hm; omega, n1⟩))⟩
  · intro v hv hnv
    rw [(old v (hlt v hv)).1]
    exact h.unplaced v hv (by rw [← hvis]; exact hnv)
  · intro v hv hvv
    rw [(old v (hlt v hv)).1]
    exact h.placed v hv (by rw [← hvis]; exact hvv)
  · intro v hv
    rw [(old v (hlt v hv)).2, hvis]
    exact h.vis v hv
  · intro v hv
    rw [live]
    by_cases h1 : v < s.next
    · rw [(old v h1).2] at hv
      exact .inl (h.live v hv)
    · by_cases h2 : s.next + 2 ≤ v
      · exact absurd (pab v h2) hv
      · omega
  · intro b v
    rw [hops]
    by_cases hbJ : b = s.blocks + 1
    · subst hbJ
      rw [if_pos rfl]
      simp only [List.mem_cons, List.not_mem_nil, or_false]
      constructor
      · rintro (rfl | rfl)
        · exact p1
        · exact p2
      · intro hpv
        by_cases h1 : v < s.next
        · rw [(old v h1).2] at hpv
          have := (h.blocks _).1 (h.parent v _ hpv)
          omega
        · by_cases h2 : s.next + 2 ≤ v
          · rw [pab v h2] at hpv; cases hpv
          · omega
    · rw [if_neg hbJ, h.ops]
      by_cases h1 : v < s.next
      · rw [(old v h1).2]
      · have hn : s.parent v = none := by
          by_contra hc
          have := h.lt v (h.live v hc)
          omega
        rw [hn]
        refine ⟨(fun h => nomatch h), fun hpv => ?_⟩
        by_cases h2 : s.next + 2 ≤ v
        · rw [pab v h2] at hpv; cases hpv
        · by_cases h3 : v = s.next
          · rw [h3, p1, Option.some.injEq] at hpv; exact absurd hpv.symm hbJ
          · have h4 : v = s.next + 1 := by omega
            rw [h4, p2, Option.some.injEq] at hpv; exact absurd hpv.symm hbJ
  · intro b
    rw [hops]
    split
    · simp
    · exact h.nodup b
  · intro a hag hva
    rw [hvis] at hva
    exact (hall a hag).2 (h.up a hag hva)
  · intro b
    simp only [Reg.blocks, List.mem_cons, List.mem_append, List.not_mem_nil, or_false]
    rw [h.blocks, hb]
    omega
  · simp only [Reg.blocks, List.cons_append, List.nil_append, List.nodup_cons, List.mem_cons, not_or]
    exact ⟨⟨by omega, fun hm => by have := hblk _ hm; omega⟩, fun hm => by have := hblk _ hm; omega, h.nodupW⟩
  · intro v b hv
    simp only [Reg.blocks, List.mem_cons, List.mem_append, List.not_mem_nil, or_false]
    by_cases h1 : v < s.next
    · rw [(old v h1).2] at hv
      exact .inr (.inr (h.parent v b hv))
    · by_cases h2 : s.next + 2 ≤ v
      · rw [pab v h2] at hv; cases hv
      · by_cases h3 : v = s.next
        · rw [h3, p1, Option.some.injEq] at hv; exact .inl hv.symm
        · have h4 : v = s.next + 1 := by omega
          rw [h4, p2, Option.some.injEq] at hv; exact .inl hv.symm
  · simp only [Lay, Reg.entry, Reg.exit]
    refine ⟨hdJ, haE, hdE, haW, trivial, ?_⟩
    refine lay_congr_tail W (fun b hm => hd b (hblk b hm)) (fun b hm => ?_) h.lay
    have hn := h.nodupW
    rw [W.blocks_eq, List.nodup_cons] at hn
    exact ha b (hblk b (by rw [W.blocks_eq]; exact List.mem_cons_of_mem _ hm)) (by rintro rfl; exact hn.1 hm)
  · change s4.desc W.exit = []
    rw [hd _ (hblk _ W.exit_mem)]
    exact h.stop
  · have oJ : s4.ops (s.blocks + 1) = [s.next, s.next + 1] := by rw [hops, if_pos rfl]
    have oE : s4.ops s.blocks = [] := by
      rw [hops, if_neg (by omega), List.eq_nil_iff_forall_not_mem]
      intro v hv
      have := (h.blocks _).1 (h.parent v _ ((h.ops _ v).1 hv))
      omega
    simp only [Scoped]
    rw [oJ, oE]
    refine ⟨⟨?_, ?_, trivial⟩, s.next, ⟨s.next + 1, by rw [oJ]; rfl, n2⟩, ⟨by simp, n1⟩, trivial, ?_⟩
    · rw [n1]; simp
    · rw [n2]; simp
    · refine scoped_transfer (X := fun _ => False) (fun c l r v hφ => hφ.mono h hE) W _ _ _ _ ?_ ?_ (fun _ h => h) h.scope
      · intro b hm
        refine ⟨by rw [hops, if_neg (by have := hblk b hm; omega)], fun v hv => ⟨(old v (h.lt v (hopl b v hv))).1, fun _ _ _ h => h⟩⟩
      · intro a hpa
        right
        by_cases h1 : a < s.next
        · left; rw [(old a h1).2]; exact hpa
        · by_cases h2 : s.next + 2 ≤ a
          · exact .inl (pab a h2)
          · right
            simp only [List.mem_cons, List.not_mem_nil, or_false]
            omega
  · intro v hv k b hk hpv
    rw [(old v (hlt v hv)).2] at hpv
    exact List.mem_cons_of_mem _ (h.saves v hv k b hk hpv)
  · intro p hp a hag hva hx
    rw [hvis] at hva
    exact hp a hag hva ((hall a hag).1 hx)
  · refine ⟨?_, ?_, ?_, ⟨trivial, hz.phis.ext h hE⟩, ?_⟩
    · intro w hw hvw hs L' hL' hi
      rw [hvis] at hvw
      refine hz.deep_ext (W' := .opt (s.blocks + 1) key (.last s.blocks) W) h hE (fun L hL => ?_) hw hvw hs hL' hi
      simp only [Reg.arms, List.nil_append, List.mem_cons] at hL
      rcases hL with rfl | hL
      · exact .inl fun b hb => by simp [Reg.blocks] at hb; omega
      · exact .inr ⟨L, hL, fun _ h => h, fun _ h => .inl h⟩
    · intro w hw hs
      obtain ⟨u, hu, hau⟩ := hz.used w hw hs
      exact ⟨u, (live u).2 (.inl hu), by rw [(old u (h.lt u hu)).1]; exact hau⟩
    · intro x hx hxg hc
      rcases (live x).1 hx with h1 | h1 | h1
      · rw [(old x (h.lt x h1)).1] at hc
        obtain ⟨b, v, hv, hphi, hav⟩ := hz.copies x h1 hxg hc
        have hnv := hE.node v (by rw [(h.ops b v).1 hv]; simp)
        exact ⟨b, v, hE.ops b v hv, by rw [hnv]; exact hphi, by rw [hnv]; exact hav⟩
      · rw [h1, n1] at hc; cases hc
      · rw [h1, n2] at hc; cases hc
    · intro b v hv hj
      rw [hops] at hv ⊢
      by_cases hbJ : b = s.blocks + 1
      · subst hbJ
        rw [if_pos rfl] at hv ⊢
        simp only [List.mem_cons, List.not_mem_nil, or_false] at hv
        rcases hv with rfl | rfl
        · rw [n1] at hj; cases hj
        · exact ⟨rfl, by rw [hdJ]; rfl⟩
      · rw [if_neg hbJ] at hv ⊢
        rw [(old v (h.lt v (hopl b v hv))).1] at hj
        rw [hd b ((h.blocks b).1 (h.parent v b ((h.ops b v).1 hv)))]
        exact hz.jumps b v hv hj

theorem optionalOutput_ok (hg : Input g) {W : Reg} (h : Inv g usage ternaries s W) (hz : Lazy g s W) {v key n : Nat} (hv : v ∈ g.ops) (hk : (g.node v).op = .save key)
    (hu : usage key = .optional) (hn : g.ops.length < n) {pend : List Nat} (hc : Complete g s (v :: pend)) :
    ∃ s' W', optionalOutput ternaries n s W.entry v key = .ok (s', W'.entry) ∧ Inv g usage ternaries s' W' ∧ Ext g s s' ∧ Complete g s' pend ∧
      Lazy g s' W' ∧ W'.exit = W.exit ∧ W'.exits = (s.blocks, some key) :: W.exits ∧ KeepsLast s s' ∧ (s.visited v = false → s'.ops s.blocks ≠ []) ∧
      (W.Flat → W'.Flat) := by
  have hWb : W.entry < s.blocks := (h.blocks _).1 W.entry_mem
  have q1 : s.newBlock.addDescendant s.blocks W.entry = .ok { s.newBlock with desc := updateAt s.newBlock.desc s.blocks [W.entry],
                                                                               anc := updateAt s.newBlock.anc W.entry [s.blocks] } := by
    have d1 : s.newBlock.desc s.blocks = [] := by simp [newBlock]
    have a1 : s.newBlock.anc W.entry = [] := by simp only [newBlock]; rw [updateAt_ne _ _ (by omega)]; exact h.root
    rw [addDescendant_ok (by rw [d1]; simp) (by rw [a1]; simp), d1, a1]; rfl
  generalize hs1 : ({ s.newBlock with desc := updateAt s.newBlock.desc s.blocks [W.entry], anc := updateAt s.newBlock.anc W.entry [s.blocks] } : Conv) = s1 at q1
  have f1n : s1.node = s.node := by rw [← hs1]; rfl
  have f1l : s1.live = s.live := by rw [← hs1]; rfl
  have f1x : s1.next = s.next := by rw [← hs1]; rfl
  have f1p : s1.parent = s.parent := by rw [← hs1]; rfl
  have f1v : s1.visited = s.visited := by rw [← hs1]; rfl
  have f1o : s1.ops = updateAt s.ops s.blocks [] := by rw [← hs1]; rfl
  have f1a : s1.anc = updateAt (updateAt s.anc s.blocks []) W.entry [s.blocks] := by rw [← hs1]; rfl
  have f1d : s1.desc = updateAt (updateAt s.desc s.blocks []) s.blocks [W.entry] := by rw [← hs1]; rfl
  have f1b : s1.blocks = s.blocks + 1 := by rw [← hs1]; rfl
  generalize hs2 : (s1.newBlock.create (s.blocks + 1) (.outputRequired key) []).create (s.blocks + 1) .jump [s1.next] = s2
  have f2a : s2.anc = updateAt s1.anc (s.blocks + 1) [] := by rw [← hs2]; simp only [newBlock, create, f1b]
  have f2d : s2.desc = updateAt s1.desc (s.blocks + 1) [] := by rw [← hs2]; simp only [newBlock, create, f1b]
  have a2E : s2.anc s.blocks = [] := by rw [f2a, updateAt_ne _ _ (by omega), f1a, updateAt_ne _ _ (by omega), updateAt_same]
  have d2J : s2.desc (s.blocks + 1) = [] := by rw [f2d, updateAt_same]
  have q3 : s2.addDescendant (s.blocks + 1) s.blocks = .ok { s2 with desc := updateAt s2.desc (s.blocks + 1) [s.blocks], anc := updateAt s2.anc s.blocks [s.blocks + 1] } := by
    rw [addDescendant_ok (by rw [d2J]; simp) (by rw [a2E]; simp), d2J, a2E]; rfl
  generalize hs3 : ({ s2 with desc := updateAt s2.desc (s.blocks + 1) [s.blocks], anc := updateAt s2.anc s.blocks [s.blocks + 1] } : Conv) = s3 at q3
  have d3J : s3.desc (s.blocks + 1) = [s.blocks] := by rw [← hs3]; simp only; rw [updateAt_same]
  have a3W : s3.anc W.entry = [s.blocks] := by
    rw [← hs3]; simp only
    rw [updateAt_ne _ _ (by omega), f2a, updateAt_ne _ _ (by omega), f1a, updateAt_same]
  have q4 : s3.addDescendant (s.blocks + 1) W.entry = .ok { s3 with desc := updateAt s3.desc (s.blocks + 1) [s.blocks, W.entry],
                                                                     anc := updateAt s3.anc W.entry [s.blocks, s.blocks + 1] } := by
    rw [addDescendant_ok (by rw [d3J, List.mem_singleton]; omega) (by rw [a3W, List.mem_singleton]; omega), d3J, a3W]; rfl
  generalize hs4 : ({ s3 with desc := updateAt s3.desc (s.blocks + 1) [s.blocks, W.entry], anc := updateAt s3.anc W.entry [s.blocks, s.blocks + 1] } : Conv) = s4 at q4
  have mk1 : mkNode (.outputRequired key) [] = ⟨.outputRequired key, []⟩ := rfl
  have mk2 : ∀ x : Nat, mkNode .jump [x] = ⟨.jump, [x]⟩ := fun _ => rfl
  have hops4 : ∀ b, s4.ops b = if b = s.blocks + 1 then [s.next, s.next + 1] else s.ops b := by
    intro b
    rw [← hs4, ← hs3, ← hs2]
    simp only [newBlock, create, f1o, f1b, f1x]
    by_cases hb : b = s.blocks + 1
    · subst hb; simp
    · rw [updateAt_ne _ _ hb, updateAt_ne _ _ hb, updateAt_ne _ _ hb, if_neg hb]
      by_cases hb2 : b = s.blocks
      · subst hb2
        rw [updateAt_same, eq_comm, List.eq_nil_iff_forall_not_mem]
        intro v hv
        have := (h.blocks _).1 (h.parent v _ ((h.ops _ v).1 hv))
        omega
      · rw [updateAt_ne _ _ hb2]
  have hvis4 : s4.visited = s.visited := by rw [← hs4, ← hs3, ← hs2]; simp only [newBlock, create, f1v]
  have hblk4 : s4.blocks = s.blocks + 2 := by rw [← hs4, ← hs3, ← hs2]; simp only [newBlock, create, f1b]
  obtain ⟨h4, x4, c4, z4⟩ := optional_blocks h hz key s4
    (by rw [← hs4, ← hs3, ← hs2]; simp only [newBlock, create, f1n, f1x, mk1, mk2])
    (by rw [← hs4, ← hs3, ← hs2]; simp only [newBlock, create, f1l, f1x])
    (by rw [← hs4, ← hs3, ← hs2]; simp only [newBlock, create, f1x])
    (by rw [← hs4, ← hs3, ← hs2]; simp only [newBlock, create, f1p, f1x])
    (by rw [← hs4, ← hs3, ← hs2]; simp only [newBlock, create, f1v])
    hops4
    (by rw [← hs4, ← hs3, ← hs2]; simp only [newBlock, create, f1b])
    (by rw [← hs4]; simp only; rw [updateAt_same])
    (by
      rw [← hs4]; simp only
      rw [updateAt_ne _ _ (by omega), ← hs3]; simp only
      rw [updateAt_ne _ _ (by omega), f2d, updateAt_ne _ _ (by omega), f1d, updateAt_same])
    (by
      intro b hb
      rw [← hs4]; simp only
      rw [updateAt_ne _ _ (by omega), ← hs3]; simp only
      rw [updateAt_ne _ _ (by omega), f2d, updateAt_ne _ _ (by omega), f1d, updateAt_ne _ _ (by omega), updateAt_ne _ _ (by omega)])
    (by
      rw [← hs4]; simp only
      rw [updateAt_ne _ _ (by omega), ← hs3]; simp only
      rw [updateAt_ne _ _ (by omega), f2a, updateAt_same])
    (by
      rw [← hs4]; simp only
      rw [updateAt_ne _ _ (by omega), ← hs3]; simp only
      rw [updateAt_same])
    (by rw [← hs4]; simp only; rw [updateAt_same])
    (by
      intro b hb hne
      rw [← hs4]; simp only
      rw [updateAt_ne _ _ hne, ← hs3]; simp only
      rw [updateAt_ne _ _ (by omega), f2a, updateAt_ne _ _ (by omega), f1a, updateAt_ne _ _ hne, updateAt_ne _ _ (by omega)])
  have hcond : ∀ t, condsLeft g t < n := fun t => lt_of_le_of_lt (condsLeft_le_length g t) hn
  obtain ⟨sl, l', d, el, pl⟩ := process_ok hg n s4 [v] [] [.arm (s.blocks + 1) key W] (.last s.blocks) h4 z4 (by
    intro q hm
    rw [List.mem_singleton.1 hm]
    refine ⟨h4.save_ready hg hv hk, fun k hk' => ?_, fun L hL => absurd hL (by simp [Reg.arms]), .inl ⟨key, hk⟩⟩
    rw [hk] at hk'
    cases hk'
    rw [if_pos hu]
    exact List.mem_cons_self) (hcond _)
  rw [List.nil_append] at el
  obtain ⟨sj, W', d', ej, pj⟩ := process_ok hg n sl d [] [] (.opt (s.blocks + 1) key l' W) pl.inv pl.late
    (fun q hm => ⟨(pl.deferred q hm).1, fun k hk => absurd hk (pl.not_save hg hm k), due_arm pl.inv.nodupW (pl.deferred q hm).2.2 (pl.deferred q hm).2.1⟩)
    (hcond _)
  have hd' := pj.none_deferred
  subst hd'
  have hempty : s.ops s.blocks = [] := by
    rw [List.eq_nil_iff_forall_not_mem]
    intro v hv
    have := (h.blocks _).1 (h.parent v _ ((h.ops _ v).1 hv))
    omega
  have hkeep : KeepsLast s4 sj := (keepsLast_process _ _ _ _ _ _ el).trans (keepsLast_process _ _ _ _ _ _ ej)
  refine ⟨sj, W', ?_, pj.inv, x4.trans (pl.ext.trans pj.ext), ?_, pj.late, pj.exit, ?_, ?_, ?_, fun h => pj.flat ⟨pl.plain trivial, h⟩⟩
  · unfold optionalOutput
    rw [q1]
    change (((s1.newBlock.create (s.blocks + 1) (.outputRequired key) []).create (s.blocks + 1) .jump [s1.next]).addDescendant (s.blocks + 1) s.blocks >>= _) = _
    rw [hs2, q3]
    change (s3.addDescendant (s.blocks + 1) W.entry >>= _) = _
    rw [q4]
    change (process ternaries n s4 [v] s.blocks [] >>= _) = _
    rw [show s.blocks = (Reg.last s.blocks).entry from rfl, el]
    change (process ternaries n sl d (s.blocks + 1) [] >>= _) = _
    rw [show s.blocks + 1 = (Reg.opt (s.blocks + 1) key l' W).entry from rfl, ej]
    rfl
  · have := pj.complete pend (pl.complete pend (c4 _ hc))
    simpa using this
  · rw [pj.exits]
    simp only [Reg.exits, pl.exit, Reg.exit]
  · refine ⟨by have := hkeep.1; omega, fun b hb u hu => hkeep.2 b (by omega) u ?_⟩
    rw [hops4, if_neg (by omega)]
    exact hu
  · intro hvis
    have hlast := process_first el (by
        change s4.ops s.blocks = []
        rw [hops4, if_neg (by omega)]
        exact hempty) (by change s.blocks < _; omega) (by rw [hvis4]; exact hvis) (by
        rw [consumers, List.filter_eq_nil_iff]
        intro u hu ha
        exact h4.arg_not_save hg hu hv (by simpa using ha) key hk) (by
        rw [h4.unplaced v hv (by rw [hvis4]; exact hvis), hk]
        simp)
    have := (keepsLast_process _ _ _ _ _ _ ej).2 s.blocks (by have : s4.blocks ≤ sl.blocks := (keepsLast_process _ _ _ _ _ _ el).1; omega) v hlast
    intro he
    rw [he] at this
    cases this

/-- The blocks of the exits belong to the tree. -/
theorem Reg.exits_mem {o : Option Nat} {b : Nat} : ∀ R : Reg, (b, o) ∈ R.exits → b ∈ R.blocks
  | .last d, h => by
    simp only [Reg.exits, List.mem_singleton, Prod.mk.injEq] at h
    simp [Reg.blocks, h.1]
  | .ite d l r rest, h => by simp [Reg.blocks, exits_mem rest h]
  | .opt d k l rest, h => by
    simp only [Reg.exits, List.mem_cons, Prod.mk.injEq] at h
    rcases h with ⟨rfl, _⟩ | h
    · simp [Reg.blocks, l.exit_mem]
    · simp [Reg.blocks, exits_mem rest h]

/-- The arms for optional outputs are not empty. -/
def ArmsFull (s : Conv) (W : Reg) : Prop := ∀ b k, (b, some k) ∈ W.exits → s.ops b ≠ []

theorem KeepsLast.nonempty {s s' : Conv} (h : KeepsLast s s') {b : Nat} (hb : b < s.blocks) (ho : s.ops b ≠ []) : s'.ops b ≠ [] := by
  intro he
  have := h.2 b hb _ (List.getLast?_eq_getLast_of_ne_nil ho)
  rw [he] at this
  cases this

theorem optionalOutputs_ok (hg : Input g) {n : Nat} (hn : g.ops.length < n) : ∀ (vs : List (Nat × Nat)) (s : Conv) (W : Reg), Inv g usage ternaries s W → Lazy g s W →
    (∀ p ∈ vs, p.1 ∈ g.ops ∧ (g.node p.1).op = .save p.2 ∧ usage p.2 = .optional) → Complete g s (vs.map (·.1)) →
    ∃ s' W', optionalOutputs ternaries n s W.entry vs = .ok (s', W'.entry) ∧ Inv g usage ternaries s' W' ∧ Complete g s' [] ∧ Lazy g s' W' ∧
      W'.exit = W.exit ∧ KeepsLast s s' ∧
      ((vs.map (·.2)).Nodup → (∀ p ∈ vs, ∀ b, (b, some p.2) ∉ W.exits) → ArmsFull s W → ArmsFull s' W') ∧ (W.Flat → W'.Flat)
  | [], s, W, h, hz, _, hc => ⟨s, W, rfl, h, hc, hz, rfl, .refl _, fun _ _ h => h, id⟩
  | (v, k) :: vs, s, W, h, hz, hv, hc => by
    obtain ⟨h1, h2, h3⟩ := hv (v, k) List.mem_cons_self
    obtain ⟨s1, W1, e1, i1, _, c1, z1, x1, xs1, k1, a1, f1⟩ := optionalOutput_ok hg h hz h1 h2 h3 hn hc
    obtain ⟨s2, W2, e2, i2, c2, z2, x2, k2, a2, f2⟩ := optionalOutputs_ok hg hn vs s1 W1 i1 z1 (fun p hp => hv p (List.mem_cons_of_mem _ hp)) c1
    refine ⟨s2, W2, ?_, i2, c2, z2, x2.trans x1, k1.trans k2, fun hd hnew hfull => ?_, fun h => f2 (f1 h)⟩
    · unfold optionalOutputs
      rw [e1]
      exact e2
    · rw [List.map_cons, List.nodup_cons] at hd
      refine a2 hd.2 ?_ ?_
      · intro p hp b hb
        rw [xs1, List.mem_cons] at hb
        rcases hb with hb | hb
        · cases hb
          exact hd.1 (List.mem_map.2 ⟨p, hp, rfl⟩)
        · exact hnew p (List.mem_cons_of_mem _ hp) b hb
      · intro b k' hb
        rw [xs1, List.mem_cons] at hb
        rcases hb with hb | hb
        · cases hb
          refine a1 ?_
          by_contra hvis
          rw [Bool.not_eq_false] at hvis
          cases hp : s.parent v with
          | none => exact (h.vis v h1).1 hvis hp
          | some b =>
            have := h.saves v h1 k b h2 hp
            rw [if_pos h3] at this
            exact hnew (v, k) List.mem_cons_self b this
        · exact k1.nonempty ((h.blocks b).1 (W.exits_mem hb)) (hfull b k' hb)

/-- When nothing more can be placed, everything is placed. -/
theorem all_visited (hg : Input g) {W : Reg} (h : Inv g usage ternaries s W) (hc : Complete g s []) : ∀ v ∈ g.ops, s.visited v = true := by
  have key : ∀ (l' l : List Nat), g.ops = l ++ l' → ∀ v ∈ l', s.visited v = true := by
    intro l'
    induction l' with
    | nil => intro l _ v hv; simp at hv
    | cons a l' ih =>
      intro l e
      have ih' := ih (l ++ [a]) (by simp [e])
      have hag : a ∈ g.ops := by rw [e]; simp
      have ha : s.visited a = true := by
        by_contra hn
        rw [Bool.not_eq_true] at hn
        refine absurd (hc a hag hn (allVisited_iff.2 fun u hu hau => ?_)) (by simp)
        by_cases hug : u ∈ g.ops
        · have hnode : s.node u = g.node u := by
            by_cases hv : s.visited u = true
            · rcases h.placed u hug hv with ⟨e, _⟩ | ⟨x, y, e, hx, hy, _⟩
              · exact e
              · rw [e] at hau
                simp only [List.mem_cons, List.not_mem_nil, or_false] at hau
                rcases hau with rfl | rfl
                · exact absurd hag hx
                · exact absurd hag hy
            · exact h.unplaced u hug (by simpa using hv)
          rw [hnode] at hau
          have hu' : u ∈ l' := by
            have hu2 := hug
            rw [e, List.mem_append, List.mem_cons] at hu2
            rcases hu2 with hu2 | hu2 | hu2
            · exfalso
              obtain ⟨l1, l2, e2⟩ := List.append_of_mem hu2
              have h1 := hg.order l1 u (l2 ++ a :: l') (by rw [e, e2]; simp) a hau
              have hnd := hg.wf.nodup
              rw [e, e2, List.nodup_append] at hnd
              exact hnd.2.2 a (by simp [h1]) a List.mem_cons_self rfl
            · exact absurd hau (by rw [hu2]; exact hg.not_self hag)
            · exact hu2
          exact ih' u hu'
        · rcases (h.made u hu hug).2 with ⟨_, _, _, hv, _⟩ | ⟨_, _, _, hv, _⟩ | ⟨k', e⟩ | ⟨u', k', e, hn', _⟩
          · exact hv
          · exact hv
          · rw [e] at hau; simp at hau
          · rw [e] at hau; rw [List.mem_singleton.1 hau] at hag; exact absurd hag hn'
      intro v hv
      rcases List.mem_cons.1 hv with rfl | hv
      · exact ha
      · exact ih' v hv
  exact fun v hv => key g.ops [] rfl v hv

/-- Only the first block has no ancestors. -/
theorem anc_ne_nil {anc desc : Nat → List Nat} : ∀ (R : Reg), Lay anc desc R → ∀ b ∈ R.blocks, b ≠ R.entry → anc b ≠ []
  | .last _, _, b, hb, hne => by simp [Reg.blocks, Reg.entry] at hb hne; exact absurd hb hne
  | .ite e l r rest, h, b, hb, hne => by
    simp only [Lay] at h
    obtain ⟨_, h2, h3, _, _, h6, h7, h8, h9⟩ := h
    simp only [Reg.blocks, Reg.entry, List.mem_cons, List.mem_append] at hb hne
    rcases hb with hb | (hb | hb) | hb
    · exact absurd hb hne
    · by_cases he : b = l.entry
      · rw [he, h2]; simp
      · exact anc_ne_nil l h7 b hb he
    · by_cases he : b = r.entry
      · rw [he, h3]; simp
      · exact anc_ne_nil r h8 b hb he
    · by_cases he : b = rest.entry
      · rw [he, h6]; simp
      · exact anc_ne_nil rest h9 b hb he
  | .opt e _ l rest, h, b, hb, hne => by
    simp only [Lay] at h
    obtain ⟨_, h2, _, h6, h7, h9⟩ := h
    simp only [Reg.blocks, Reg.entry, List.mem_cons, List.mem_append] at hb hne
    rcases hb with hb | hb | hb
    · exact absurd hb hne
    · by_cases he : b = l.entry
      · rw [he, h2]; simp
      · exact anc_ne_nil l h7 b hb he
    · by_cases he : b = rest.entry
      · rw [he, h6]; simp
      · exact anc_ne_nil rest h9 b hb he

theorem Inv.root_iff {W : Reg} (h : Inv g usage ternaries s W) {b : Nat} (hb : b < s.blocks) : s.anc b = [] ↔ b = W.entry := by
  constructor
  · intro ha
    by_contra hne
    exact anc_ne_nil W h.lay b ((h.blocks b).2 hb) hne ha
  · rintro rfl; exact h.root

theorem Inv.one_root {W : Reg} (h : Inv g usage ternaries s W) : ((List.range s.blocks).filter fun b => (s.anc b).isEmpty).length = 1 := by
  have hp : ((List.range s.blocks).filter fun b => (s.anc b).isEmpty).Perm [W.entry] := by
    rw [List.perm_ext_iff_of_nodup (List.nodup_range.filter _) (by simp)]
    intro b
    rw [List.mem_filter, List.mem_range, List.isEmpty_iff, List.mem_singleton]
    constructor
    · rintro ⟨h1, h2⟩; exact (h.root_iff h1).1 h2
    · rintro rfl
      exact ⟨(h.blocks _).1 W.entry_mem, h.root⟩
  simpa using hp.length_eq

theorem dropCopies_same : ∀ (l : List Nat) (s : Conv), (s.dropCopies l).1.live = s.live ∧ (s.dropCopies l).1.parent = s.parent ∧
    (s.dropCopies l).1.anc = s.anc ∧ (s.dropCopies l).1.desc = s.desc ∧ (s.dropCopies l).1.blocks = s.blocks ∧ (s.dropCopies l).1.ops = s.ops
  | [], s => ⟨rfl, rfl, rfl, rfl, rfl, rfl⟩
  | v :: vs, s => by
    unfold dropCopies
    split
    · exact dropCopies_same vs (s.forward v (s.firstOperand v))
    · exact dropCopies_same vs s

theorem eliminateCopies_same : ∀ (bs : List Nat) (s : Conv), (s.eliminateCopies bs).live = s.live ∧ (s.eliminateCopies bs).parent = s.parent ∧
    (s.eliminateCopies bs).anc = s.anc ∧ (s.eliminateCopies bs).desc = s.desc ∧ (s.eliminateCopies bs).blocks = s.blocks
  | [], s => ⟨rfl, rfl, rfl, rfl, rfl⟩
  | b :: bs, s => by
    unfold eliminateCopies
    simp only
    obtain ⟨h1, h2, h3, h4, h5⟩ := eliminateCopies_same bs { (s.dropCopies (s.ops b)).1 with
      ops := updateAt (s.dropCopies (s.ops b)).1.ops b (s.dropCopies (s.ops b)).2 }
    obtain ⟨k1, k2, k3, k4, k5, _⟩ := dropCopies_same (s.ops b) s
    exact ⟨h1.trans k1, h2.trans k2, h3.trans k3, h4.trans k4, h5.trans k5⟩

/-- Every output is written once. -/
def OnceKeys (g : Graph) : Prop := ∀ v ∈ g.ops, ∀ w ∈ g.ops, ∀ key, (g.node v).op = .save key → (g.node w).op = .save key → v = w

/-- There is at most one return value. -/
def OneReturn (g : Graph) (usage : Nat → Usage) : Prop := ∀ v ∈ g.ops, ∀ w ∈ g.ops, ∀ key key', (g.node v).op = .save key → (g.node w).op = .save key' →
  usage key = .returnValue → usage key' = .returnValue → v = w

theorem nodup_optionalKeys (hg : Input g) (ho : OnceKeys g) (usage : Nat → Usage) :
    ((((init g).savesOf usage .optional).filterMap fun v => (saveKey ((init g).node v).op).map fun k => (v, k)).map (·.2)).Nodup := by
  have hl : (init g).live.Nodup := ((g.ops.perm_insertionSort (· ≤ ·)).nodup_iff).2 hg.wf.nodup
  have hs : ((init g).savesOf usage .optional).Nodup := (List.nodup_reverse.2 hl).filter _
  rw [List.map_filterMap, List.Nodup, List.pairwise_filterMap]
  refine List.Pairwise.imp_of_mem (fun {v w} hv hw hvw k hk k' hk' => ?_) hs
  obtain ⟨h1, a, h2, _⟩ := mem_savesOf.1 hv
  obtain ⟨h3, b, h4, _⟩ := mem_savesOf.1 hw
  have e1 : (init g).node v = g.node v := rfl
  have e2 : (init g).node w = g.node w := rfl
  rw [e1, h2] at hk
  rw [e2, h4] at hk'
  simp only [saveKey, Option.map_some, Option.some.injEq] at hk hk'
  subst hk hk'
  rintro rfl
  exact hvw (ho v h1 w h3 _ h2 h4)

/-- The conversion succeeds; before the useless copies are removed the state satisfies the invariant and everything is placed. -/
theorem convert_ok (hg : Input g) (usage : Nat → Usage) (ternaries : Bool) :
    ∃ s W, convert g usage ternaries = .ok (s.eliminateCopies (List.range s.blocks), W.entry) ∧ Inv g usage ternaries s W ∧
      (∀ v ∈ g.ops, s.visited v = true) ∧ Lazy g s W ∧ (OnceKeys g → ArmsFull s W) ∧
      (OneReturn g usage → ∀ v ∈ g.ops, ∀ key, (g.node v).op = .save key → usage key = .returnValue → (s.ops W.exit).getLast? = some v) ∧
      W.Flat := by
  have h0 := inv_init (usage := usage) (ternaries := ternaries) hg
  have hn : g.ops.length < (init g).live.length + 1 := by rw [init_live_length]; omega
  obtain ⟨s1, W1, d, e1, p1⟩ := process_ok hg ((init g).live.length + 1) (init g).newBlock
    ((init g).savesOf usage .returnValue ++ (init g).savesOf usage .output) [] [] (.last 0) h0 (lazy_init hg) (by
      intro q hm
      have : q ∈ g.ops ∧ ∃ k, (g.node q).op = .save k ∧ usage k ≠ .optional := by
        rcases List.mem_append.1 hm with hm | hm <;> obtain ⟨h1, k, h2, h3⟩ := mem_savesOf.1 hm <;> exact ⟨h1, k, h2, by rw [h3]; simp⟩
      obtain ⟨h1, k, h2, h3⟩ := this
      refine ⟨h0.save_ready hg h1 h2, fun k' hk' => ?_, fun L hL => absurd hL (by simp [Reg.arms]), .inl ⟨k, h2⟩⟩
      rw [h2] at hk'
      cases hk'
      rw [if_neg h3]
      exact List.mem_cons_self) (lt_of_le_of_lt (condsLeft_le_length _ _) hn)
  have hd := p1.none_deferred
  subst hd
  have hopt : ∀ p ∈ ((init g).savesOf usage .optional).filterMap fun v => (saveKey ((init g).node v).op).map fun k => (v, k),
      p.1 ∈ g.ops ∧ (g.node p.1).op = .save p.2 ∧ usage p.2 = .optional := by
    rintro ⟨v, k⟩ hp
    obtain ⟨u, hu, he⟩ := List.mem_filterMap.1 hp
    obtain ⟨h1, k', h2, h3⟩ := mem_savesOf.1 hu
    have hn : (init g).node u = g.node u := rfl
    rw [hn, h2] at he
    simp only [saveKey, Option.map_some, Option.some.injEq, Prod.mk.injEq] at he
    obtain ⟨rfl, rfl⟩ := he
    exact ⟨h1, h2, h3⟩
  have hmap : ∀ v ∈ (init g).savesOf usage .optional,
      v ∈ (((init g).savesOf usage .optional).filterMap fun v => (saveKey ((init g).node v).op).map fun k => (v, k)).map (·.1) := by
    intro v hv
    obtain ⟨h1, k, h2, h3⟩ := mem_savesOf.1 hv
    refine List.mem_map.2 ⟨(v, k), List.mem_filterMap.2 ⟨v, hv, ?_⟩, rfl⟩
    have hn : (init g).node v = g.node v := rfl
    rw [hn, h2]
    rfl
  have hc0 : Complete g (init g).newBlock (((init g).savesOf usage .returnValue ++ (init g).savesOf usage .output) ++
      (((init g).savesOf usage .optional).filterMap fun v => (saveKey ((init g).node v).op).map fun k => (v, k)).map (·.1)) := by
    intro a ha _ hall
    have hno : ∀ u ∈ g.ops, a ∉ (g.node u).args := by
      intro u hu hau
      have := allVisited_iff.1 hall u (h0.mem u hu) hau
      simp [init, newBlock] at this
    rcases hg.conv.used a ha with ⟨k, hk⟩ | ⟨u, hu, hau⟩
    · simp only [List.mem_append]
      cases hu : usage k with
      | returnValue => exact .inl (.inl (mem_savesOf.2 ⟨ha, k, hk, hu⟩))
      | output => exact .inl (.inr (mem_savesOf.2 ⟨ha, k, hk, hu⟩))
      | optional => exact .inr (hmap a (mem_savesOf.2 ⟨ha, k, hk, hu⟩))
    · exact absurd hau (hno u hu)
  have hc1 := p1.complete _ hc0
  rw [List.nil_append] at hc1
  obtain ⟨s2, W2, e2, i2, c2, z2, x2, k2, a2, f2⟩ := optionalOutputs_ok hg hn _ s1 W1 p1.inv p1.late hopt hc1
  have hall := all_visited hg i2 c2
  have hex : W1.exits = [(0, none)] := p1.exits
  have hexit : W1.exit = 0 := p1.exit
  refine ⟨s2, W2, ?_, i2, hall, z2, fun ho => a2 (nodup_optionalKeys hg ho usage) ?_ ?_, ?_, f2 (p1.flat trivial)⟩
  rotate_left
  · intro p _ b hb
    rw [hex, List.mem_singleton] at hb
    cases hb
  · intro b k hb
    rw [hex, List.mem_singleton] at hb
    cases hb
  · intro hr v hv key hk hu
    have hm : v ∈ (init g).savesOf usage .returnValue := mem_savesOf.2 ⟨hv, key, hk, hu⟩
    obtain ⟨w, rest, hwr⟩ := List.exists_cons_of_ne_nil (List.ne_nil_of_mem hm)
    have hw : w = v := by
      obtain ⟨h1, k', h2, h3⟩ := mem_savesOf.1 (show w ∈ (init g).savesOf usage .returnValue by rw [hwr]; exact List.mem_cons_self)
      exact hr w h1 v hv k' key h2 hk h3 hu
    subst hw
    rw [x2, hexit]
    refine k2.2 0 ((p1.inv.blocks 0).1 (hexit ▸ W1.exit_mem)) w ?_
    rw [hwr, List.cons_append] at e1
    refine process_first e1 ?_ ?_ ?_ ?_ ?_
    · simp [newBlock, init, updateAt, Reg.entry]
    · simp [newBlock, init, Reg.entry]
    · simp [newBlock, init]
    · rw [consumers, List.filter_eq_nil_iff]
      intro u hu' ha
      exact h0.arg_not_save hg hu' hv (by simpa using ha) key hk
    · change (g.node w).op ≠ .cond
      rw [hk]
      simp
  unfold convert
  simp only
  change (process ternaries _ _ _ (Reg.last 0).entry [] >>= _) = _
  rw [e1]
  change (optionalOutputs ternaries _ s1 W1.entry _ >>= _) = _
  rw [e2]
  change (check (((List.range s2.blocks).filter fun b => (s2.anc b).isEmpty).length == 1) >>= _) = _
  rw [check_true (by rw [i2.one_root]; rfl)]
  change (check ((s2.eliminateCopies (List.range s2.blocks)).live.all _) >>= _) = _
  rw [check_true]
  · rfl
  · obtain ⟨k1, k2, _⟩ := eliminateCopies_same (List.range s2.blocks) s2
    rw [List.all_eq_true]
    intro v hv
    rw [k1] at hv
    rw [k2]
    have : s2.parent v ≠ none := by
      by_cases hvg : v ∈ g.ops
      · exact (i2.vis v hvg).1 (hall v hvg)
      · exact (i2.made v hv hvg).1
    simp [this]

end Wf.Gen
