import Verif.Gen.FlowStep

/-!
# `process` keeps the invariant and ends (used in proofs)
-/

namespace Wf.Gen

open Conv

variable {g : Graph} {usage : Nat → Usage} {ternaries : Bool} {s s' : Conv}

/-- The conditionals that are not visited. -/
def condsLeft (g : Graph) (s : Conv) : Nat := (g.ops.filter fun v => decide ((g.node v).op = .cond) && !s.visited v).length

theorem condsLeft_le (h : ∀ v, s.visited v = true → s'.visited v = true) : condsLeft g s' ≤ condsLeft g s := by
  unfold condsLeft
  generalize g.ops = l
  induction l with
  | nil => simp
  | cons a l ih =>
    simp only [List.filter_cons]
    cases h1 : s.visited a with
    | true => simpa [h a h1] using ih
    | false =>
      by_cases h2 : (g.node a).op = .cond
      · by_cases h3 : s'.visited a = true
        · simp [h2, h3]; omega
        · simp [h2, h3, ih]
      · simpa [h2] using ih

theorem condsLeft_lt (h : ∀ v, s.visited v = true → s'.visited v = true) {v : Nat} (hv : v ∈ g.ops) (hc : (g.node v).op = .cond)
    (h1 : s.visited v = false) (h2 : s'.visited v = true) : condsLeft g s' < condsLeft g s := by
  have hle : ∀ l : List Nat, (l.filter fun v => decide ((g.node v).op = .cond) && !s'.visited v).length ≤
      (l.filter fun v => decide ((g.node v).op = .cond) && !s.visited v).length := by
    intro l
    have := condsLeft_le (g := { g with ops := l }) h
    exact this
  obtain ⟨l, l', e⟩ := List.append_of_mem hv
  have a1 := hle l
  have a2 := hle l'
  unfold condsLeft
  rw [e]
  simp only [List.filter_append, List.filter_cons, List.length_append, hc, h1, h2]
  simp
  omega

theorem Complete.mono {p p' : List Nat} (h : Complete g s p) (hp : ∀ a ∈ p, s.allVisited a = true → a ∈ p') : Complete g s p' :=
  fun a ha hv hall => hp a (h a ha hv hall) hall

theorem commonCondition_mem {conds : List Nat} (h : conds ≠ []) : s.commonCondition conds ∈ conds.map s.firstOperand := by
  unfold commonCondition
  simp only
  have hne : conds.map s.firstOperand ≠ [] := by simpa using h
  generalize conds.map s.firstOperand = cs at hne
  have key : ∀ (f : Nat → Nat → Nat) (l : List Nat) (b : Nat), (∀ x y, f x y = x ∨ f x y = y) → b ∈ cs → (∀ x ∈ l, x ∈ cs) → l.foldl f b ∈ cs := by
    intro f l
    induction l with
    | nil => intro b _ hb _; exact hb
    | cons a l ih =>
      intro b hf hb hl
      refine ih _ hf ?_ fun x hx => hl x (List.mem_cons_of_mem _ hx)
      rcases hf b a with e | e <;> rw [e]
      · exact hb
      · exact hl a List.mem_cons_self
  refine key _ cs _ (fun x y => ?_) ?_ fun x hx => hx
  · split
    · exact .inr rfl
    · exact .inl rfl
  · cases cs with
    | nil => exact absurd rfl hne
    | cons a l => exact List.mem_cons_self

theorem mem_sortedConds {conds : List Nat} {v : Nat} : v ∈ sortedConds conds ↔ v ∈ conds := by
  simp [sortedConds, List.mem_dedup]

/-- There is no arm for an optional output. -/
def Reg.Plain : Reg → Prop
  | .last _ => True
  | .ite _ l r rest => l.Plain ∧ r.Plain ∧ rest.Plain
  | .opt _ _ _ _ => False

/-- Arms for optional outputs are not inside other arms. -/
def Reg.Flat : Reg → Prop
  | .last _ => True
  | .ite _ l r rest => l.Plain ∧ r.Plain ∧ rest.Flat
  | .opt _ _ l rest => l.Plain ∧ rest.Flat

/-- What `process` gives. -/
structure Processed (g : Graph) (usage : Nat → Usage) (ternaries : Bool) (s s' : Conv) (fs : List Frame) (R R' : Reg) (queue d : List Nat) : Prop where
  exit : R'.exit = R.exit
  exits : R'.exits = R.exits
  inv : Inv g usage ternaries s' (plug fs R')
  ext : Ext g s s'
  deferred : ∀ q ∈ d, Ready g s' q ∧ Outside s' R' q ∧ HasIn s' R' q
  complete : ∀ pend, Complete g s (queue ++ pend) → Complete g s' (d ++ pend)
  late : Lazy g s' (plug fs R')
  grow : ∀ b ∈ R.blocks, b ∈ R'.blocks
  plain : R.Plain → R'.Plain
  flat : R.Flat → R'.Flat

theorem Processed.not_save (hg : Input g) {fs : List Frame} {R R' : Reg} {queue d : List Nat} (h : Processed g usage ternaries s s' fs R R' queue d)
    {q : Nat} (hq : q ∈ d) (k : Nat) : (g.node q).op ≠ .save k := by
  obtain ⟨h1, ⟨u, hu, ha, _⟩, _⟩ := h.deferred q hq
  exact h.inv.arg_not_save hg hu h1.mem ha k

theorem due_left {J q : Nat} {l r R : Reg} (hn : (Reg.ite J l r R).blocks.Nodup) (h1 : HasIn s l q) (h2 : Outside s l q) : Due g s (.ite J l r R) q := by
  simp only [Reg.blocks, List.nodup_cons, List.nodup_append, List.mem_append] at hn
  obtain ⟨_, ⟨_, _, hlr⟩, _, hd⟩ := hn
  have hr : Outside s r q := h1.outside fun b hb hb' => hlr b hb b hb' rfl
  have hR : Outside s R q := h1.outside fun b hb hb' => hd b (.inl hb) b hb' rfl
  refine ⟨fun L hL => ?_, .inr ?_⟩
  · simp only [Reg.arms, List.mem_cons, List.mem_append] at hL
    rcases hL with rfl | rfl | (hL | hL) | hL
    · exact h2
    · exact hr
    · exact h2.sub fun b hb => Reg.arms_blocks _ hL hb
    · exact hr.sub fun b hb => Reg.arms_blocks _ hL hb
    · exact hR.sub fun b hb => Reg.arms_blocks _ hL hb
  · obtain ⟨u, hu, ha, b, hp, hb⟩ := h1
    exact ⟨u, hu, ha, b, hp, by simp [Reg.blocks, hb]⟩

theorem due_right {J q : Nat} {l r R : Reg} (hn : (Reg.ite J l r R).blocks.Nodup) (h1 : HasIn s r q) (h2 : Outside s r q) : Due g s (.ite J l r R) q := by
  simp only [Reg.blocks, List.nodup_cons, List.nodup_append, List.mem_append] at hn
  obtain ⟨_, ⟨_, _, hlr⟩, _, hd⟩ := hn
  have hl : Outside s l q := h1.outside fun b hb hb' => hlr b hb' b hb rfl
  have hR : Outside s R q := h1.outside fun b hb hb' => hd b (.inr hb) b hb' rfl
  refine ⟨fun L hL => ?_, .inr ?_⟩
  · simp only [Reg.arms, List.mem_cons, List.mem_append] at hL
    rcases hL with rfl | rfl | (hL | hL) | hL
    · exact hl
    · exact h2
    · exact hl.sub fun b hb => Reg.arms_blocks _ hL hb
    · exact h2.sub fun b hb => Reg.arms_blocks _ hL hb
    · exact hR.sub fun b hb => Reg.arms_blocks _ hL hb
  · obtain ⟨u, hu, ha, b, hp, hb⟩ := h1
    exact ⟨u, hu, ha, b, hp, by simp [Reg.blocks, hb]⟩

theorem due_rest {J q : Nat} {l r R : Reg} (hn : (Reg.ite J l r R).blocks.Nodup) (h1 : HasIn s R q) (h2 : Due g s R q) : Due g s (.ite J l r R) q := by
  simp only [Reg.blocks, List.nodup_cons, List.nodup_append, List.mem_append] at hn
  obtain ⟨_, _, _, hd⟩ := hn
  have hl : Outside s l q := h1.outside fun b hb hb' => hd b (.inl hb') b hb rfl
  have hr : Outside s r q := h1.outside fun b hb hb' => hd b (.inr hb') b hb rfl
  refine ⟨fun L hL => ?_, .inr ?_⟩
  · simp only [Reg.arms, List.mem_cons, List.mem_append] at hL
    rcases hL with rfl | rfl | (hL | hL) | hL
    · exact hl
    · exact hr
    · exact hl.sub fun b hb => Reg.arms_blocks _ hL hb
    · exact hr.sub fun b hb => Reg.arms_blocks _ hL hb
    · exact h2.arms L hL
  · obtain ⟨u, hu, ha, b, hp, hb⟩ := h1
    exact ⟨u, hu, ha, b, hp, by simp [Reg.blocks, hb]⟩

theorem due_arm {J k q : Nat} {l R : Reg} (hn : (Reg.opt J k l R).blocks.Nodup) (h1 : HasIn s l q) (h2 : Outside s l q) : Due g s (.opt J k l R) q := by
  simp only [Reg.blocks, List.nodup_cons, List.nodup_append, List.mem_append] at hn
  obtain ⟨_, _, _, hd⟩ := hn
  have hR : Outside s R q := h1.outside fun b hb hb' => hd b hb b hb' rfl
  refine ⟨fun L hL => ?_, .inr ?_⟩
  · simp only [Reg.arms, List.mem_cons, List.mem_append] at hL
    rcases hL with rfl | hL | hL
    · exact h2
    · exact h2.sub fun b hb => Reg.arms_blocks _ hL hb
    · exact hR.sub fun b hb => Reg.arms_blocks _ hL hb
  · obtain ⟨u, hu, ha, b, hp, hb⟩ := h1
    exact ⟨u, hu, ha, b, hp, by simp [Reg.blocks, hb]⟩

theorem due_entry {q u : Nat} {R : Reg} (hn : R.blocks.Nodup) (hu : u ∈ s.live) (ha : q ∈ (s.node u).args) (hp : s.parent u = some R.entry) : Due g s R q :=
  ⟨fun L hL => ⟨u, hu, ha, _, hp, R.entry_arms hn L hL⟩, .inr ⟨u, hu, ha, _, hp, R.entry_mem⟩⟩

theorem process_ok (hg : Input g) : ∀ (n : Nat) (s : Conv) (queue deferred : List Nat) (fs : List Frame) (R : Reg),
    Inv g usage ternaries s (plug fs R) → Lazy g s (plug fs R) → (∀ q ∈ queue, Ready g s q ∧ SaveAt g usage (plug fs R) R.entry q ∧ Due g s R q) →
    condsLeft g s < n →
    ∃ s' R' d, process ternaries n s queue R.entry deferred = .ok (s', R'.entry, deferred ++ d) ∧ Processed g usage ternaries s s' fs R R' queue d
  | 0, _, _, _, _, _, _, _, _, hn => absurd hn (Nat.not_lt_zero _)
  | n + 1, s, queue, deferred, fs, R, h, hz, hq, hn => by
    obtain ⟨s1, dd, cs, e1, ⟨h1, z1⟩, x1, _, hd1, hw1, hc1, _⟩ := drain_ok hg (s.turns queue) s queue deferred [] h hz hq (by simp) (by simp) (turnsLeft_le s queue)
    rw [List.nil_append] at e1 hw1
    by_cases hcs : cs = []
    · subst hcs
      refine ⟨s1, R, dd, ?_, rfl, rfl, h1, x1, hd1, (fun pend hp => by simpa using hc1 pend hp), z1, fun _ h => h, id, id⟩
      unfold process
      rw [e1]
      rfl
    have hne : sortedConds cs ≠ [] := by
      obtain ⟨a, ha⟩ := List.exists_mem_of_ne_nil cs hcs
      exact List.ne_nil_of_mem (mem_sortedConds.2 ha)
    have hcm := commonCondition_mem (s := s1) hne
    generalize hcdef : s1.commonCondition (sortedConds cs) = c at hcm
    obtain ⟨w, hw, hwc⟩ := List.mem_map.1 hcm
    have hG : Group g s1 R c ((sortedConds cs).filter fun v => s1.firstOperand v = c) := by
      refine ⟨List.ne_nil_of_mem (a := w) (by simp [hw, hwc]), (List.nodup_dedup _).filter _, ?_, ?_⟩
      · intro v hv
        exact hw1 v (mem_sortedConds.1 (List.mem_filter.1 hv).1)
      · intro v hv
        simpa using (List.mem_filter.1 hv).2
    obtain ⟨s2, ql, qr, e2, h2, x2, hb2, hq2, hc2, hv2, hcg, hcs2, z2, hil, hir, j, hjl, hja, hjp⟩ := branch_ok hg h1 z1 hG
    have hwm := (List.mem_filter.2 ⟨hw, by simpa using hwc⟩ : w ∈ (sortedConds cs).filter fun v => s1.firstOperand v = c)
    have n1 : condsLeft g s1 ≤ condsLeft g s := condsLeft_le x1.visited
    have n2 : condsLeft g s2 < condsLeft g s1 :=
      condsLeft_lt x2.visited (hG.wait w hwm).mem (hG.wait w hwm).cond (hG.wait w hwm).not (hv2 w hwm)
    -- left
    obtain ⟨sl, l', dl, el, pl⟩ := process_ok hg n s2 ql [] (.left (s1.blocks + 2) (.last (s1.blocks + 1)) R :: fs) (.last s1.blocks) h2 z2
      (fun q hm => ⟨(hq2 q (List.mem_append_left _ hm)).1, fun k hk => absurd hk ((hq2 q (List.mem_append_left _ hm)).2 k),
        fun L hL => absurd hL (by simp [Reg.arms]), .inr (hil q hm)⟩) (by omega)
    rw [List.nil_append] at el
    have nl : condsLeft g sl ≤ condsLeft g s2 := condsLeft_le pl.ext.visited
    -- right
    obtain ⟨sr, r', dr, er, pr⟩ := process_ok hg n sl qr dl (.right (s1.blocks + 2) l' R :: fs) (.last (s1.blocks + 1)) pl.inv pl.late
      (fun q hm => ⟨(hq2 q (List.mem_append_right _ hm)).1.ext pl.ext, fun k hk => absurd hk ((hq2 q (List.mem_append_right _ hm)).2 k),
        fun L hL => absurd hL (by simp [Reg.arms]), .inr ((hir q hm).ext pl.ext fun _ h => h)⟩) (by omega)
    have nr : condsLeft g sr ≤ condsLeft g sl := condsLeft_le pr.ext.visited
    have x12r : Ext g s1 sr := x2.trans (pl.ext.trans pr.ext)
    -- the jump block
    have hq3 : ∀ q ∈ (if sr.allVisited c = true then [c] else []) ++ (dl ++ dr) ++ (sortedConds cs).filter (fun v => s1.firstOperand v ≠ c),
        Ready g sr q ∧ (∀ k, (g.node q).op ≠ .save k) ∧ Due g sr (.ite (s1.blocks + 2) l' r' R) q := by
      have hnd : (Reg.ite (s1.blocks + 2) l' r' R).blocks.Nodup := (List.nodup_append.1 (nodup_plug (fs := fs) pr.inv.nodupW)).1
      intro q hm
      rw [List.mem_append, List.mem_append, List.mem_append] at hm
      rcases hm with (hm | hm | hm) | hm
      · split at hm
        · rename_i hall
          rw [List.mem_singleton.1 hm]
          have hx := pl.ext.trans pr.ext
          exact ⟨⟨hcg, hall⟩, hcs2, due_entry hnd (hx.live j hjl) (by rw [hx.node j (by rw [hjp]; simp)]; exact hja) (hx.parent j _ hjp)⟩
        · simp at hm
      · exact ⟨(pl.deferred q hm).1.ext pr.ext, pl.not_save hg hm,
          due_left hnd ((pl.deferred q hm).2.2.ext pr.ext fun _ h => h) ((pl.deferred q hm).2.1.ext pr.ext)⟩
      · exact ⟨(pr.deferred q hm).1, pr.not_save hg hm, due_right hnd (pr.deferred q hm).2.2 (pr.deferred q hm).2.1⟩
      · have := hw1 q (mem_sortedConds.1 (List.mem_filter.1 hm).1)
        have hns : ∀ k, (g.node q).op ≠ .save k := fun k hk => by rw [this.cond] at hk; cases hk
        have hh : HasIn s1 R q := this.due.has.resolve_left fun ⟨k, hk⟩ => hns k hk
        exact ⟨(⟨this.mem, this.all⟩ : Ready g s1 q).ext x12r, hns, due_rest hnd (hh.ext x12r fun _ h => h) (this.due.ext x12r)⟩
    obtain ⟨s3, R3, d3, e3, p3⟩ := process_ok hg n sr _ (deferred ++ dd) fs (.ite (s1.blocks + 2) l' r' R) pr.inv pr.late
      (fun q hm => ⟨(hq3 q hm).1, fun k hk => absurd hk ((hq3 q hm).2.1 k), (hq3 q hm).2.2⟩) (by omega)
    refine ⟨s3, R3, dd ++ d3, ?_, ?_⟩
    · unfold process
      rw [e1]
      change (if cs = [] then _ else _) = _
      rw [if_neg hcs]
      simp only [hcdef]
      rw [e2]
      change (process ternaries n s2 ql s1.blocks [] >>= _) = _
      rw [show s1.blocks = (Reg.last s1.blocks).entry from rfl, el]
      change (process ternaries n sl qr (s1.blocks + 1) dl >>= _) = _
      rw [show s1.blocks + 1 = (Reg.last (s1.blocks + 1)).entry from rfl, er]
      change process ternaries n sr _ (s1.blocks + 2) (deferred ++ dd) = _
      rw [show deferred ++ (dd ++ d3) = deferred ++ dd ++ d3 from (List.append_assoc ..).symm]
      exact e3
    · refine ⟨p3.exit, p3.exits, p3.inv, x1.trans (x12r.trans p3.ext), ?_, ?_, p3.late, fun b hb => p3.grow b (by simp [Reg.blocks, hb]),
        fun h => p3.plain ⟨pl.plain trivial, pr.plain trivial, h⟩, fun h => p3.flat ⟨pl.plain trivial, pr.plain trivial, h⟩⟩
      · intro q hm
        rcases List.mem_append.1 hm with hm | hm
        · refine ⟨(hd1 q hm).1.ext (x12r.trans p3.ext), ?_,
            (hd1 q hm).2.2.ext (x12r.trans p3.ext) fun b hb => p3.grow b (by simp [Reg.blocks, hb])⟩
          obtain ⟨u, hu, ha, b, hp, hb⟩ := (hd1 q hm).2.1
          have hx := x12r.trans p3.ext
          refine ⟨u, hx.live u hu, by rw [hx.node u (by rw [hp]; simp)]; exact ha, b, hx.parent u b hp, fun hb3 => ?_⟩
          have hctx : b ∈ ctxBlocks fs := (mem_plug.1 (h1.parent u b hp)).resolve_left hb
          have := List.nodup_append.1 (nodup_plug p3.inv.nodupW)
          exact this.2.2 b hb3 b hctx rfl
        · exact p3.deferred q hm
      · intro pend hp
        have c1 := hc1 pend hp
        have c2 := hc2 (dd ++ (sortedConds cs).filter (fun v => s1.firstOperand v ≠ c) ++ pend) (c1.mono fun a ha _ => by
          simp only [List.mem_append, List.mem_filter, mem_sortedConds, decide_eq_true_eq] at ha ⊢
          tauto)
        have cl := pl.complete (qr ++ [c] ++ (dd ++ (sortedConds cs).filter (fun v => s1.firstOperand v ≠ c) ++ pend)) (c2.mono fun a ha _ => by
          simp only [List.mem_append] at ha ⊢
          tauto)
        have cr := pr.complete (dl ++ [c] ++ (dd ++ (sortedConds cs).filter (fun v => s1.firstOperand v ≠ c) ++ pend)) (cl.mono fun a ha _ => by
          simp only [List.mem_append] at ha ⊢
          tauto)
        have c3 := p3.complete (dd ++ pend) (cr.mono fun a ha hall => by
          simp only [List.mem_append] at ha ⊢
          rcases ha with ha | (ha | ha) | (ha | ha) | ha
          · tauto
          · tauto
          · rw [List.mem_singleton] at ha
            subst ha
            left; left; left
            rw [if_pos hall]; simp
          · tauto
          · tauto
          · tauto)
        refine c3.mono fun a ha _ => ?_
        simp only [List.mem_append] at ha ⊢
        tauto

end Wf.Gen
