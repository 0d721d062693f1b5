import Verif.Gen.CountSpec
import Verif.Gen.AstRegion

/-! # The counts of a tree of branches (used in proofs) -/

namespace Wf.Gen

open Conv

theorem foldl_sum (f : Nat → Nat) : ∀ (l : List Nat) (n : Nat), l.foldl (fun n v => n + f v) n = n + (l.map f).sum
  | [], n => by simp
  | v :: l, n => by rw [List.foldl_cons, foldl_sum f l, List.map_cons, List.sum_cons]; omega

theorem work_append (s : Conv) (l l' : List Nat) (x : OpLabel) : s.work (l ++ l') x = s.work l x + s.work l' x := by
  simp [Conv.work]

theorem blockCounts_eq (s : Conv) (b : Nat) (x : OpLabel) : s.blockCounts b x = s.work (s.ops b) x := by
  have key : ∀ (f g : Nat → Nat), (∀ v, f v = g v) → ∀ l : List Nat, (l.map f).sum = (l.map g).sum := fun f g h l => by rw [funext h]
  cases x <;> simp only [blockCounts, countIf, countNary, foldl_sum, Nat.zero_add, Conv.work]
  case call =>
    rw [← List.sum_map_add]
    refine key _ _ (fun v => ?_) _
    cases (s.node v).op <;> rfl
  all_goals
    refine key _ _ (fun v => ?_) _
    cases (s.node v).op <;> rfl

/-- The elementary operations of one block after another. -/
def Conv.workOn (s : Conv) (bs : List Nat) (x : OpLabel) : Nat := s.work (bs.flatMap s.ops) x

theorem workOn_append (s : Conv) (l l' : List Nat) (x : OpLabel) : s.workOn (l ++ l') x = s.workOn l x + s.workOn l' x := by
  simp [Conv.workOn, work_append]

theorem workOn_cons (s : Conv) (b : Nat) (l : List Nat) (x : OpLabel) : s.workOn (b :: l) x = s.work (s.ops b) x + s.workOn l x := by
  simp [Conv.workOn, work_append]

/-- The most that is done on the ways through a tree. -/
def Reg.most (s : Conv) (x : OpLabel) : Reg → Nat
  | .last b => s.work (s.ops b) x
  | .ite b l r rest => s.work (s.ops b) x + Nat.max (l.most s x) (r.most s x) + rest.most s x
  | .opt b _ l rest => s.work (s.ops b) x + l.most s x + rest.most s x

/-- Branches end in jumps, and arms are not empty. -/
def Reg.Sound (s : Conv) : Reg → Prop
  | .last _ => True
  | .ite b l r rest => s.endsInJump b = true ∧ s.ops l.exit ≠ [] ∧ s.ops r.exit ≠ [] ∧ l.Sound s ∧ r.Sound s ∧ rest.Sound s
  | .opt b _ l rest => s.endsInJump b = true ∧ s.ops l.exit ≠ [] ∧ l.Sound s ∧ rest.Sound s

theorem ops_of_ends {s : Conv} {b : Nat} (h : s.endsInJump b = true) : s.ops b ≠ [] := by
  intro he
  rw [endsInJump, he] at h
  cases h

theorem filter_blocked {M : Nat} {l : List Nat} (h : M ∉ l) : (M :: l).filter (· ≠ M) = l := by
  rw [List.filter_cons_of_neg (by simp), List.filter_eq_self]
  intro x hx
  have hxe : x ≠ M := by rintro rfl; exact h hx
  simpa using hxe

theorem countAll_ok {s : Conv} (hj : ∀ b, (s.desc b).length = 1 → s.endsInJump b = false) : ∀ (R : Reg) (X blocked : List Nat) (n : Nat), Part s R X → R.Sound s →
    (∀ b ∈ R.blocks, b ∉ blocked) → (s.desc R.exit = [] ∨ ∃ m, s.desc R.exit = [m] ∧ m ∈ blocked) → (s.desc R.exit ≠ [] → s.ops R.exit ≠ []) → R.blocks.length + 1 ≤ n →
    s.countAll n blocked R.entry = .ok fun x => R.most s x
  | _, _, _, 0, _, _, _, _, _, hn => absurd hn (by omega)
  | .last b, X, blocked, n + 1, hpart, hs, hblk, hexit, hne, hn => by
    have hnb : b ∉ blocked := hblk b (by simp [Reg.blocks])
    have hbc : s.blockCounts b = fun x => (Reg.last b).most s x := by funext x; exact blockCounts_eq s b x
    rcases hexit with he | ⟨k, he, hk⟩
    · have he : s.desc b = [] := he
      change s.countAll (n + 1) blocked b = _
      rw [countAll, if_neg hnb]
      simp only [he]
      rw [hbc]
    · have he : s.desc b = [k] := he
      obtain ⟨n', rfl⟩ : ∃ n', n = n' + 1 := ⟨n - 1, by simp [Reg.blocks] at hn; omega⟩
      change s.countAll (n' + 1 + 1) blocked b = _
      rw [countAll, if_neg hnb]
      have ho : s.ops b ≠ [] := hne (by change s.desc b ≠ []; rw [he]; simp)
      simp only [he, hj b (by rw [he]; rfl), if_neg ho]
      rw [countAll, if_pos hk, hbc]
      rfl
  | .ite b l r rest, X, blocked, n + 1, hpart, hs, hblk, hexit, hne, hn => by
    obtain ⟨he, hl, hr, sl, sr, srest⟩ := hs
    obtain ⟨partl, partr, partrest⟩ := hpart.ite
    have hlay := hpart.lay
    simp only [Lay] at hlay
    obtain ⟨l1, l2, l3, l4, l5, l6, l7, l8, l9⟩ := hlay
    have hnod := hpart.nodup
    rw [show (Reg.ite b l r rest).blocks ++ X = b :: (l.blocks ++ (r.blocks ++ (rest.blocks ++ X))) by simp [Reg.blocks]] at hnod
    obtain ⟨nb, n1⟩ := List.nodup_cons.1 hnod
    have disl := (List.nodup_append.1 n1).2.2
    have disr := (List.nodup_append.1 (List.nodup_append.1 n1).2.1).2.2
    have hMrest := rest.entry_mem
    have hlM : ∀ x ∈ l.blocks, x ≠ rest.entry := fun x hx => disl x hx _ (by simp [hMrest])
    have hrM : ∀ x ∈ r.blocks, x ≠ rest.entry := fun x hx => disr x hx _ (by simp [hMrest])
    have hlen : (Reg.ite b l r rest).blocks.length = 1 + l.blocks.length + r.blocks.length + rest.blocks.length := by simp [Reg.blocks]; omega
    have hmerge := merge_join (s := s) (l := l) (rest := rest) (rb := r.blocks) (X := X) (re := r.entry) l7 l4 (arm_next r l8 l5) (.inl r.entry_mem) (Reg.blocks_cons rest)
      partl.later partl.nodup partl.len
    have hnb : b ∉ blocked := hblk b (by simp [Reg.blocks])
    have hnM : rest.entry ∉ blocked := hblk _ (by simp [Reg.blocks, hMrest])
    have el := countAll_ok hj l _ (rest.entry :: blocked) n partl sl (fun x hx hm => by
        rcases List.mem_cons.1 hm with hm | hm
        · exact hlM x hx hm
        · exact hblk x (by simp [Reg.blocks, hx]) hm) (.inr ⟨_, l4, List.mem_cons_self⟩) (fun _ => hl) (by omega)
    have er := countAll_ok hj r _ (rest.entry :: blocked) n partr sr (fun x hx hm => by
        rcases List.mem_cons.1 hm with hm | hm
        · exact hrM x hx hm
        · exact hblk x (by simp [Reg.blocks, hx]) hm) (.inr ⟨_, l5, List.mem_cons_self⟩) (fun _ => hr) (by omega)
    have en := countAll_ok hj rest _ blocked n partrest srest (fun x hx => hblk x (by simp [Reg.blocks, hx])) hexit hne (by omega)
    change s.countAll (n + 1) blocked b = _
    rw [countAll, if_neg hnb]
    simp only [l1, if_neg (ops_of_ends he), he, hmerge, if_neg hnM, el, er, filter_blocked hnM, en]
    refine congrArg Except.ok (funext fun x => ?_)
    simp only [OpCounts.plus, OpCounts.max, blockCounts_eq, Reg.most]
  | .opt b k l rest, X, blocked, n + 1, hpart, hs, hblk, hexit, hne, hn => by
    obtain ⟨he, hl, sl, srest⟩ := hs
    obtain ⟨partl, partrest⟩ := hpart.opt
    have hlay := hpart.lay
    simp only [Lay] at hlay
    obtain ⟨l1, l2, l4, l6, l7, l9⟩ := hlay
    have hnod := hpart.nodup
    rw [show (Reg.opt b k l rest).blocks ++ X = b :: (l.blocks ++ (rest.blocks ++ X)) by simp [Reg.blocks]] at hnod
    obtain ⟨nb, n1⟩ := List.nodup_cons.1 hnod
    have disl := (List.nodup_append.1 n1).2.2
    have hMrest := rest.entry_mem
    have hlM : ∀ x ∈ l.blocks, x ≠ rest.entry := fun x hx => disl x hx _ (by simp [hMrest])
    have hlen : (Reg.opt b k l rest).blocks.length = 1 + l.blocks.length + rest.blocks.length := by simp [Reg.blocks]; omega
    have hmerge := merge_join (s := s) (l := l) (rest := rest) (rb := []) (X := X) (re := rest.entry) l7 l4 (fun x hx => by cases hx) (.inr rfl) (Reg.blocks_cons rest)
      partl.later partl.nodup partl.len
    have hnb : b ∉ blocked := hblk b (by simp [Reg.blocks])
    have hnM : rest.entry ∉ blocked := hblk _ (by simp [Reg.blocks, hMrest])
    have el := countAll_ok hj l _ (rest.entry :: blocked) n partl sl (fun x hx hm => by
        rcases List.mem_cons.1 hm with hm | hm
        · exact hlM x hx hm
        · exact hblk x (by simp [Reg.blocks, hx]) hm) (.inr ⟨_, l4, List.mem_cons_self⟩) (fun _ => hl) (by omega)
    have en := countAll_ok hj rest _ blocked n partrest srest (fun x hx => hblk x (by simp [Reg.blocks, hx])) hexit hne (by omega)
    have er : s.countAll n (rest.entry :: blocked) rest.entry = .ok fun _ => 0 := by
      obtain ⟨n', rfl⟩ : ∃ n', n = n' + 1 := ⟨n - 1, by omega⟩
      rw [countAll, if_pos List.mem_cons_self]
    change s.countAll (n + 1) blocked b = _
    rw [countAll, if_neg hnb]
    simp only [l1, if_neg (ops_of_ends he), he, hmerge, if_neg hnM, el, er, filter_blocked hnM, en]
    refine congrArg Except.ok (funext fun x => ?_)
    simp only [OpCounts.plus, OpCounts.max, blockCounts_eq, Reg.most]
    rw [show Nat.max (Reg.most s x l) 0 = Reg.most s x l from Nat.max_zero _]

/-- A way through the blocks goes through a tree and then on. -/
theorem walk_region {s : Conv} (x : OpLabel) : ∀ (R : Reg) (bs : List Nat), Lay s.anc s.desc R → (s.desc R.exit).length ≤ 1 → Walk s.desc R.entry bs →
    ∃ pre suf, bs = pre ++ suf ∧ s.workOn pre x ≤ R.most s x ∧ ((s.desc R.exit = [] ∧ suf = []) ∨ ∃ m, s.desc R.exit = [m] ∧ Walk s.desc m suf)
  | .last b, bs, _, hl, hw => by
    cases hw with
    | stop h => exact ⟨[b], [], by simp [Reg.entry], by simp [workOn_cons, Reg.most, Conv.workOn, Conv.work], .inl ⟨h, rfl⟩⟩
    | @step _ d bs hd hw =>
      refine ⟨[b], bs, rfl, by simp [workOn_cons, Reg.most, Conv.workOn, Conv.work], .inr ⟨d, ?_, hw⟩⟩
      have hl : (s.desc b).length ≤ 1 := hl
      have hd : d ∈ s.desc b := hd
      change s.desc b = [d]
      match hb : s.desc b, hl, hd with
      | [], _, hd => cases hd
      | [e], _, hd => rw [List.mem_singleton.1 hd]
      | _ :: _ :: _, hl, _ => simp at hl
  | .ite b l r rest, bs, hlay, hl, hw => by
    simp only [Lay] at hlay
    obtain ⟨l1, l2, l3, l4, l5, l6, l7, l8, l9⟩ := hlay
    cases hw with
    | stop h => have h : s.desc b = [] := h; rw [l1] at h; cases h
    | @step _ d bs hd hw =>
      have hd : d ∈ s.desc b := hd
      have arm : ∃ pre suf, bs = pre ++ suf ∧ s.workOn pre x ≤ Nat.max (l.most s x) (r.most s x) ∧ Walk s.desc rest.entry suf := by
        rw [l1] at hd
        rcases List.mem_cons.1 hd with rfl | hd
        · obtain ⟨pre, suf, e, h1, h2⟩ := walk_region x l bs l7 (by rw [l4]; simp) hw
          refine ⟨pre, suf, e, h1.trans (Nat.le_max_left _ _), ?_⟩
          rcases h2 with ⟨h2, _⟩ | ⟨m, h2, h3⟩
          · rw [l4] at h2; cases h2
          · rw [l4] at h2; cases h2; exact h3
        · rw [List.mem_singleton.1 hd] at hw
          obtain ⟨pre, suf, e, h1, h2⟩ := walk_region x r bs l8 (by rw [l5]; simp) hw
          refine ⟨pre, suf, e, h1.trans (Nat.le_max_right _ _), ?_⟩
          rcases h2 with ⟨h2, _⟩ | ⟨m, h2, h3⟩
          · rw [l5] at h2; cases h2
          · rw [l5] at h2; cases h2; exact h3
      obtain ⟨pre, suf, rfl, h1, h2⟩ := arm
      obtain ⟨pre', suf', rfl, h3, h4⟩ := walk_region x rest suf l9 hl h2
      refine ⟨b :: (pre ++ pre'), suf', by simp [Reg.entry], ?_, h4⟩
      rw [workOn_cons, workOn_append]
      simp only [Reg.most]
      omega
  | .opt b k l rest, bs, hlay, hl, hw => by
    simp only [Lay] at hlay
    obtain ⟨l1, l2, l4, l6, l7, l9⟩ := hlay
    cases hw with
    | stop h => have h : s.desc b = [] := h; rw [l1] at h; cases h
    | @step _ d bs hd hw =>
      have hd : d ∈ s.desc b := hd
      have arm : ∃ pre suf, bs = pre ++ suf ∧ s.workOn pre x ≤ l.most s x ∧ Walk s.desc rest.entry suf := by
        rw [l1] at hd
        rcases List.mem_cons.1 hd with rfl | hd
        · obtain ⟨pre, suf, e, h1, h2⟩ := walk_region x l bs l7 (by rw [l4]; simp) hw
          refine ⟨pre, suf, e, h1, ?_⟩
          rcases h2 with ⟨h2, _⟩ | ⟨m, h2, h3⟩
          · rw [l4] at h2; cases h2
          · rw [l4] at h2; cases h2; exact h3
        · rw [List.mem_singleton.1 hd] at hw
          exact ⟨[], bs, rfl, by simp [Conv.workOn, Conv.work], hw⟩
      obtain ⟨pre, suf, rfl, h1, h2⟩ := arm
      obtain ⟨pre', suf', rfl, h3, h4⟩ := walk_region x rest suf l9 hl h2
      refine ⟨b :: (pre ++ pre'), suf', by simp [Reg.entry], ?_, h4⟩
      rw [workOn_cons, workOn_append]
      simp only [Reg.most]
      omega

/-- There is a way on which the most is done. -/
theorem walk_most {s : Conv} (x : OpLabel) : ∀ (R : Reg), Lay s.anc s.desc R →
    ∃ pre, s.workOn pre x = R.most s x ∧ (s.desc R.exit = [] → Walk s.desc R.entry pre) ∧
      ∀ m suf, m ∈ s.desc R.exit → Walk s.desc m suf → Walk s.desc R.entry (pre ++ suf)
  | .last b, _ => ⟨[b], by simp [workOn_cons, Reg.most, Conv.workOn, Conv.work], fun h => .stop h, fun _ _ hm hw => .step hm hw⟩
  | .ite b l r rest, hlay => by
    simp only [Lay] at hlay
    obtain ⟨l1, l2, l3, l4, l5, l6, l7, l8, l9⟩ := hlay
    obtain ⟨pl, e1, _, c1⟩ := walk_most x l l7
    obtain ⟨pr, e2, _, c2⟩ := walk_most x r l8
    obtain ⟨pn, e3, d3, c3⟩ := walk_most x rest l9
    have arm : ∃ p, s.workOn p x = Nat.max (l.most s x) (r.most s x) ∧ ∀ suf, Walk s.desc rest.entry suf → Walk s.desc b (b :: (p ++ suf)) := by
      rcases Nat.le_total (l.most s x) (r.most s x) with hle | hle
      · exact ⟨pr, by rw [e2]; exact (Nat.max_eq_right hle).symm, fun suf hs => .step (d := r.entry) (by rw [l1]; simp) (c2 _ _ (by rw [l5]; simp) hs)⟩
      · exact ⟨pl, by rw [e1]; exact (Nat.max_eq_left hle).symm, fun suf hs => .step (d := l.entry) (by rw [l1]; simp) (c1 _ _ (by rw [l4]; simp) hs)⟩
    obtain ⟨p, ep, cp⟩ := arm
    refine ⟨b :: (p ++ pn), ?_, fun h => cp _ (d3 h), fun m suf hm hs => ?_⟩
    · rw [workOn_cons, workOn_append, ep, e3]
      simp only [Reg.most]
      omega
    · have := cp _ (c3 m suf hm hs)
      simpa [Reg.entry] using this
  | .opt b k l rest, hlay => by
    simp only [Lay] at hlay
    obtain ⟨l1, l2, l4, l6, l7, l9⟩ := hlay
    obtain ⟨pl, e1, _, c1⟩ := walk_most x l l7
    obtain ⟨pn, e3, d3, c3⟩ := walk_most x rest l9
    have cp : ∀ suf, Walk s.desc rest.entry suf → Walk s.desc b (b :: (pl ++ suf)) :=
      fun suf hs => .step (d := l.entry) (by rw [l1]; simp) (c1 _ _ (by rw [l4]; simp) hs)
    refine ⟨b :: (pl ++ pn), ?_, fun h => cp _ (d3 h), fun m suf hm hs => ?_⟩
    · rw [workOn_cons, workOn_append, e1, e3]
      simp only [Reg.most]
      omega
    · have := cp _ (c3 m suf hm hs)
      simpa [Reg.entry] using this

section

variable {V : Type} [Arith V] {info : AstInfo} {g : Graph} {I : Interp V} {truth : V → Bool} {val : Nat → V} {W : Reg} {s : Conv}

/-- A run goes a way through the blocks. -/
theorem exec_walk : ∀ (n : Nat) (pred : Option Nat) (b : Nat) (m m' : Machine V), exec I truth s n pred b m = some m' →
    ∃ bs, Walk s.desc b bs ∧ m'.done = m.done ++ bs.flatMap s.ops
  | 0, _, _, _, _, h => by cases h
  | n + 1, pred, b, m, m', h => by
    rw [exec] at h
    cases h1 : execOps I s pred b (s.ops b) m with
    | none => rw [h1] at h; cases h
    | some m1 =>
      rw [h1] at h
      have hd := execOps_done _ _ _ h1
      have go : ∀ d ∈ s.desc b, exec I truth s n (some b) d m1 = some m' → ∃ bs, Walk s.desc b bs ∧ m'.done = m.done ++ bs.flatMap s.ops := by
        intro d hdm he
        obtain ⟨bs, hw, e⟩ := exec_walk n _ _ _ _ he
        exact ⟨b :: bs, .step hdm hw, by rw [e, hd]; simp⟩
      match hb : s.desc b with
      | [] =>
        simp only [hb] at h
        cases h
        exact ⟨[b], .stop hb, by rw [hd]; simp⟩
      | [d] =>
        simp only [hb] at h
        exact go d (by rw [hb]; simp) h
      | [d, e] =>
        simp only [hb] at h
        cases hc : (jumpCondition s b).bind m1.env with
        | none => rw [hc] at h; cases h
        | some x =>
          rw [hc] at h
          exact go _ (by rw [hb]; split_ifs <;> simp) h
      | _ :: _ :: _ :: _ => simp only [hb] at h; cases h

theorem Fine.sound (h : Fine info g I truth val W s) : ∀ (R : Reg) (A P : Nat → Prop), Scoped s (PhiVal truth val s) A P R → HasPhi s R → R.Flat →
    (∀ b k, (b, some k) ∈ R.exits → s.ops b ≠ []) → R.Sound s
  | .last _, _, _, _, _, _, _ => trivial
  | .ite b l r rest, A, P, hs, hphi, hflat, hfull => by
    simp only [Scoped] at hs
    obtain ⟨ho, c, hj, sl, sr, srest⟩ := hs
    obtain ⟨⟨p0, hp0, hphi0⟩, pl, pr, prest⟩ := hphi
    obtain ⟨fl, fr, frest⟩ := hflat
    obtain ⟨x0, y0, _, hx0, hy0, _, hcn, _⟩ : PhiVal truth val s c l.exit r.exit p0 := opsOk_phi hphi0 _ _ srest.entry_ok hp0
    refine ⟨hj.ends.1, (fun he => by rw [he] at hx0; cases hx0), (fun he => by rw [he] at hy0; cases hy0), h.sound l _ _ sl pl fl.flat (fun b k hk => absurd hk fl.exits),
      h.sound r _ _ sr pr fr.flat (fun b k hk => absurd hk fr.exits), h.sound rest _ _ srest prest frest hfull⟩
  | .opt b k l rest, A, P, hs, hphi, hflat, hfull => by
    simp only [Scoped] at hs
    obtain ⟨ho, c, hj, hc, sl, srest⟩ := hs
    obtain ⟨pl, prest⟩ := hphi
    obtain ⟨fl, frest⟩ := hflat
    exact ⟨hj.ends.1, hfull l.exit k (by simp [Reg.exits]), h.sound l _ _ sl pl fl.flat (fun b k hk => absurd hk fl.exits),
      h.sound rest _ _ srest prest frest (fun b k hk => hfull b k (by simp [Reg.exits, hk]))⟩

theorem Fine.counts (h : Fine info g I truth val W s) : s.operationCounts W.entry = .ok fun x => W.most s x := by
  have hpart : Part s W [] := by
    refine ⟨h.lay, by rw [List.append_nil]; exact h.nodup, ?_, by rw [List.append_nil]; exact h.blocks⟩
    exact later_append W [] h.lay (by rw [h.stop]; simp) (by rw [h.stop]; simp) trivial
  refine countAll_ok (fun b hl => ?_) W [] [] _ hpart (h.sound W _ _ h.clean.scope h.clean.phis h.flat h.clean.full) (by simp) (.inl h.stop) (fun hne => absurd h.stop hne)
    (by have := h.blocks; omega)
  cases hj : s.endsInJump b with
  | false => rfl
  | true =>
    exfalso
    rw [endsInJump] at hj
    cases hg : (s.ops b).getLast? with
    | none => rw [hg] at hj; cases hj
    | some u =>
      rw [hg] at hj
      have := h.clean.jumps b u (List.mem_of_getLast? hg) (by simpa using hj)
      omega

end

end Wf.Gen
