import Verif.Gen.AstBlock

/-!
# The structured program of a tree of branches (used in proofs)
-/

namespace Wf.Gen

open Conv

variable {V : Type} [Arith V]

section

variable {info : AstInfo} {g : Graph} {I : Interp V} {truth : V → Bool} {val : Nat → V} {W : Reg} {s : Conv}

theorem Fine.no_target (h : Fine info g I truth val W s) {b x t : Nat} (hx : x ∈ s.ops b) (hs : silent (s.node x).op = false) (hb : (s.desc b).length ≠ 1)
    (ht : Target s x t) : False := by
  cases ht with
  | own h1 _ =>
    rw [isPhi_iff.1 h1] at hs
    cases hs
  | step h1 h2 _ =>
    obtain ⟨d, hd⟩ := h.use h1
    rw [h.phi_use hx h1 (isPhi_iff.1 h2) hd] at hb
    exact hb rfl

theorem lay_entry {anc desc : Nat → List Nat} : ∀ R : Reg, Lay anc desc R → R.entry = R.exit ∨ (desc R.entry).length = 2
  | .last _, _ => .inl rfl
  | .ite b l r rest, h => .inr (by simp only [Lay] at h; simp [Reg.entry, h.1])
  | .opt b k l rest, h => .inr (by simp only [Lay] at h; simp [Reg.entry, h.1])

/-- A region, and the blocks after it. -/
structure Part (s : Conv) (R : Reg) (X : List Nat) : Prop where
  lay : Lay s.anc s.desc R
  nodup : (R.blocks ++ X).Nodup
  later : Later s.desc (R.blocks ++ X)
  len : (R.blocks ++ X).length ≤ s.blocks

theorem Later.suffix {desc : Nat → List Nat} : ∀ (l : List Nat) {X : List Nat}, Later desc (l ++ X) → Later desc X
  | [], _, h => h
  | _ :: l, _, h => Later.suffix l h.2.2

theorem Part.ite {b : Nat} {l r rest : Reg} {X : List Nat} (h : Part s (.ite b l r rest) X) : Part s l (r.blocks ++ (rest.blocks ++ X)) ∧ Part s r (rest.blocks ++ X) ∧
    Part s rest X := by
  obtain ⟨h1, h2, h3, h4⟩ := h
  simp only [Lay] at h1
  obtain ⟨l1, l2, l3, l4, l5, l6, l7, l8, l9⟩ := h1
  have e : (Reg.ite b l r rest).blocks ++ X = b :: (l.blocks ++ (r.blocks ++ (rest.blocks ++ X))) := by simp [Reg.blocks]
  rw [e] at h2 h3 h4
  have n1 := (List.nodup_cons.1 h2).2
  have n2 := (List.nodup_append.1 n1).2.1
  have n3 := (List.nodup_append.1 n2).2.1
  have s1 := h3.2.2
  have s2 := s1.suffix
  have s3 := s2.suffix
  simp only [List.length_cons, List.length_append] at h4
  refine ⟨⟨l7, n1, s1, ?_⟩, ⟨l8, n2, s2, ?_⟩, ⟨l9, n3, s3, ?_⟩⟩ <;> simp only [List.length_append] <;> omega

theorem Part.opt {b k : Nat} {l rest : Reg} {X : List Nat} (h : Part s (.opt b k l rest) X) : Part s l (rest.blocks ++ X) ∧ Part s rest X := by
  obtain ⟨h1, h2, h3, h4⟩ := h
  simp only [Lay] at h1
  obtain ⟨l1, l2, l4, l6, l7, l9⟩ := h1
  have e : (Reg.opt b k l rest).blocks ++ X = b :: (l.blocks ++ (rest.blocks ++ X)) := by simp [Reg.blocks]
  rw [e] at h2 h3 h4
  have n1 := (List.nodup_cons.1 h2).2
  have n2 := (List.nodup_append.1 n1).2.1
  have s1 := h3.2.2
  have s2 := s1.suffix
  simp only [List.length_cons, List.length_append] at h4
  refine ⟨⟨l7, n1, s1, ?_⟩, ⟨l9, n2, s2, ?_⟩⟩ <;> simp only [List.length_append] <;> omega

/-- The state of the variables in which the statements of a region may be run. -/
structure Prepared (info : AstInfo) (val : Nat → V) (s : Conv) (A : Nat → Prop) (R : Reg) (m : Store V) : Prop where
  on : m.returned = false
  holds : Holds info s val A m.vars
  phis : ∀ x ∈ s.ops R.entry, (s.node x).op = .phi → ∀ t, Target s x t → m.vars t = some (some (val t))
  fresh : ∀ d ∈ R.blocks, ∀ v ∈ s.ops d, d ≠ R.entry ∨ (s.node v).op ≠ .phi → m.vars v = none
  chan : ∀ x ∈ s.ops R.exit, R.exit ≠ R.entry ∨ (s.node x).op ≠ .phi → ∀ p ∈ s.uses x, (s.node p).op = .phi → ∀ t, Target s p t → m.vars t = some none ∧ val t = val x

/-- The variables that the statements of a region assign, among those that are declared before. -/
def Sent (s : Conv) (R : Reg) (t : Nat) : Prop :=
  ∃ x ∈ s.ops R.exit, (R.exit ≠ R.entry ∨ (s.node x).op ≠ .phi) ∧ ∃ p ∈ s.uses x, (s.node p).op = .phi ∧ Target s p t

/-- What the statements of a region do. -/
structure Done (truth : V → Bool) (val : Nat → V) (s : Conv) (R : Reg) (m m' : Store V) : Prop where
  out : m'.out = m.out ++ (R.path (taken truth s val)).flatMap fun b => written s val (s.ops b)
  ret : m'.returned = true → s.desc R.exit = []
  chan : ∀ x ∈ s.ops R.exit, ∀ p ∈ s.uses x, (s.node p).op = .phi → ∀ t, Target s p t → m'.vars t = some (some (val t))
  keep : ∀ a, m.vars a = some (some (val a)) → m'.vars a = some (some (val a))
  vis : ∀ a, (m.vars a).isSome → (m'.vars a).isSome
  frame : ∀ a, m.vars a = some none → ¬ Sent s R a → m'.vars a = some none

/-- One arm of a branch whose other end is `M`: every phi function of `M` selects one value of its last block. -/
def Side (val : Nat → V) (s : Conv) (M : Nat) (R : Reg) : Prop :=
  ∀ p ∈ s.ops M, (s.node p).op = .phi → ∃ x ∈ s.ops R.exit, x ∈ (s.node p).args ∧ (∀ x' ∈ (s.node p).args, x' ∈ s.ops R.exit → x' = x) ∧ val p = val x

theorem Fine.arm_ready (h : Fine info g I truth val W s) {A : Nat → Prop} {R : Reg} {M : Nat} {m : Store V} (hside : Side val s M R) (hexit : s.desc R.exit = [M])
    (hr : m.returned = false) (hA : Holds info s val A m.vars) (hentry : ∀ x ∈ s.ops R.entry, (s.node x).op ≠ .phi) (hfresh : ∀ d ∈ R.blocks, ∀ v ∈ s.ops d, m.vars v = none)
    (hvis : ∀ p ∈ s.declaredPhis M, m.vars p = some none)
    (hout : ∀ p ∈ s.ops M, (s.node p).op = .phi → ∀ q ∈ s.uses p, (s.node q).op = .phi → ∀ t, Target s q t → m.vars t = some none ∧ val t = val p) : Prepared info val s A R m := by
  refine ⟨hr, hA, fun x hx hp => absurd hp (hentry x hx), fun d hd v hv _ => hfresh d hd v hv, fun x hx _ p hp hphi t ht => ?_⟩
  obtain ⟨d, hd⟩ := h.use hp
  have hdM := h.phi_use hx hp hphi hd
  rw [hexit] at hdM
  cases hdM
  obtain ⟨x', hx', _, huni, hval⟩ := hside p hd hphi
  have := huni x (mem_uses.1 hp).2 hx
  subst this
  cases ht with
  | own h1 h2 =>
    refine ⟨hvis p ?_, hval⟩
    simp [declaredPhis, hd, h1, h2]
  | step h1 h2 h3 =>
    obtain ⟨h4, h5⟩ := hout p hd hphi _ h1 (isPhi_iff.1 h2) t h3
    exact ⟨h4, h5.trans hval⟩

theorem Fine.arm_phis (h : Fine info g I truth val W s) {A : Nat → Prop} {R : Reg} {M : Nat} {m m' : Store V} (hside : Side val s M R) (hready : Prepared info val s A R m)
    (hentry : ∀ x ∈ s.ops R.entry, (s.node x).op ≠ .phi) (hdone : Done truth val s R m m') : ∀ p ∈ s.ops M, (s.node p).op = .phi → ∀ t, Target s p t → (m.leave m').vars t = some (some (val t)) := by
  intro p hp hphi t ht
  obtain ⟨x, hx, hxa, _, _⟩ := hside p hp hphi
  have hu := h.uses_of hp hxa
  change (if (m.vars t).isSome then m'.vars t else none) = _
  have hor : R.exit ≠ R.entry ∨ (s.node x).op ≠ .phi := by
    by_cases he : R.exit = R.entry
    · exact .inr (hentry x (by rw [← he]; exact hx))
    · exact .inl he
  rw [if_pos (by rw [(hready.chan x hx hor p hu hphi t ht).1]; rfl)]
  exact hdone.chan x hx p hu hphi t ht

theorem leave_keep {m m' : Store V} {R : Reg} (hdone : Done truth val s R m m') {a : Nat} (ha : m.vars a = some (some (val a))) : (m.leave m').vars a = some (some (val a)) := by
  change (if (m.vars a).isSome then m'.vars a else none) = _
  rw [if_pos (by rw [ha]; rfl)]
  exact hdone.keep a ha

theorem leave_vis {m m' : Store V} {R : Reg} (hdone : Done truth val s R m m') {a : Nat} (ha : (m.vars a).isSome) : ((m.leave m').vars a).isSome := by
  change (if (m.vars a).isSome then m'.vars a else none).isSome = true
  rw [if_pos ha]
  exact hdone.vis a ha

theorem leave_frame {m m' : Store V} {R : Reg} (hdone : Done truth val s R m m') {a : Nat} (ha : m.vars a = some none) (hs : ¬ Sent s R a) : (m.leave m').vars a = some none := by
  change (if (m.vars a).isSome then m'.vars a else none) = _
  rw [if_pos (by rw [ha]; rfl)]
  exact hdone.frame a ha hs

theorem leave_none {m m' : Store V} {a : Nat} (ha : m.vars a = none) : (m.leave m').vars a = none := by
  change (if (m.vars a).isSome then m'.vars a else none) = none
  rw [ha]
  rfl

theorem declare_ok : ∀ (l : List Nat) (m : Store V), m.returned = false → l.Nodup → (∀ p ∈ l, m.vars p = none) →
    ∃ vars, runAll I truth (l.map .declare) m = some { m with vars := vars } ∧ (∀ p ∈ l, vars p = some none) ∧ ∀ a, a ∉ l → vars a = m.vars a
  | [], m, _, _, _ => ⟨m.vars, rfl, by simp, fun _ _ => rfl⟩
  | p :: l, m, hr, hn, hl => by
    have hstep : (Stmt.declare p).run I truth m = some { m with vars := updateAt m.vars p (some none) } := by
      change (if (m.vars p).isSome then none else some _) = _
      rw [hl p List.mem_cons_self]
      rfl
    obtain ⟨vars, h1, h2, h3⟩ := declare_ok l { m with vars := updateAt m.vars p (some none) } hr (List.nodup_cons.1 hn).2 (by
      intro q hq
      change updateAt m.vars p (some none) q = none
      rw [updateAt_ne _ _ (by rintro rfl; exact (List.nodup_cons.1 hn).1 hq)]
      exact hl q (List.mem_cons_of_mem _ hq))
    refine ⟨vars, by rw [List.map_cons, runAll_cons hr hstep]; exact h1, ?_, ?_⟩
    · intro q hq
      rcases List.mem_cons.1 hq with rfl | hq
      · rw [h3 q (List.nodup_cons.1 hn).1]
        change updateAt m.vars q (some none) q = some none
        simp
      · exact h2 q hq
    · intro a ha
      rw [List.mem_cons, not_or] at ha
      rw [h3 a ha.2]
      exact updateAt_ne _ _ ha.1

theorem Jumps.ends {b c : Nat} (h : Jumps s b c) : s.endsInJump b = true ∧ processBlock.jumpTarget s b = some c ∧ s.ops b ≠ [] := by
  obtain ⟨u, h1, h2⟩ := h
  refine ⟨by rw [endsInJump, h1]; simp [h2], by rw [processBlock.jumpTarget, h1]; simp [h2], ?_⟩
  intro he
  rw [he] at h1
  cases h1

theorem Fine.condition_ok (h : Fine info g I truth val W s) {A : Nat → Prop} {d : Nat → Bool} (hA : Closed s A) (hd : Declared info s A d) {b c : Nat}
    (hj : Jumps s b c) (hc : ∀ k, (s.node c).op ≠ .outputRequired k) (hAc : A c) : Expressed info s I val A c (s.visitArgument info d (s.live.length + 1) c) := by
  obtain ⟨u, h1, h2⟩ := hj
  have hu := List.mem_of_getLast? h1
  have hcu : c ∈ (s.node u).args := by rw [h2]; exact List.mem_singleton.2 rfl
  have huo : (s.node u).op = .jump := by rw [h2]
  obtain ⟨⟨e, he⟩, hx⟩ := hA c hAc
  by_cases hdc : d c = true
  · refine ⟨.ref c, by rw [visitArgument, if_pos hdc], fun vars hh => ?_⟩
    change (vars c).join = _
    rw [hh c hAc (hd.1 c hdc)]
    rfl
  · rw [visitArgument, if_neg hdc]
    have hap : (s.node c).op ≠ .phi := fun hp => hdc (hd.2 c hAc (h.phi_declares hu (by rw [huo]; exact fun h => nomatch h) hcu hp))
    have has : silent (s.node c).op = false := by
      cases hs : silent (s.node c).op with
      | false => rfl
      | true =>
        rcases h.clean.args b u hu c hcu hs with h' | ⟨_, k, h'⟩
        · exact absurd h' hap
        · exact absurd h' (hc k)
    exact h.visitValue_ok hA hd _ e c he has (hx hap) (by
      have := h.rank_lt' he
      omega)

theorem Reg.Plain.exits {b k : Nat} : ∀ {R : Reg}, R.Plain → (b, some k) ∉ R.exits
  | .last _, _ => by simp [Reg.exits]
  | .ite _ _ _ rest, h => Reg.Plain.exits (R := rest) h.2.2

theorem Reg.Plain.flat : ∀ {R : Reg}, R.Plain → R.Flat
  | .last _, _ => trivial
  | .ite _ _ _ rest, h => ⟨h.1, h.2.1, Reg.Plain.flat (R := rest) h.2.2⟩

/-- Every test for an optional output is reached. -/
def Reaches (I : Interp V) (truth : V → Bool) (R : Reg) (ss : List Stmt) (m : Store V) : Prop :=
  ∀ b k, (b, some k) ∈ R.exits → ∃ pre body post m', ss = pre ++ .optional k body :: post ∧ runAll I truth pre m = some m' ∧ m'.returned = false

theorem Fine.region_ok (h : Fine info g I truth val W s) : ∀ (R : Reg) (X : List Nat) (A P : Nat → Prop) (n : Nat) (st : AstState), Part s R X →
    Scoped s (PhiVal truth val s) A P R → HasPhi s R → R.Flat → (∀ b k, (b, some k) ∈ R.exits → s.ops b ≠ []) → (∀ b ∈ R.blocks, b ∉ st.blocked) →
    (s.desc R.exit = [] ∨ ∃ m, s.desc R.exit = [m] ∧ m ∈ st.blocked) → (s.desc R.exit ≠ [] → s.ops R.exit ≠ []) → Closed s A → Declared info s A st.declared →
    (∀ v ∈ s.ops R.entry, (s.node v).op = .phi → declares info s v = true → st.declared v = true) → R.blocks.length + 1 ≤ n →
    ∃ st' ss, s.processBlock info n st R.entry = .ok (st', ss) ∧ st'.blocked = st.blocked ∧ (∀ a, st'.declared a = true → declares info s a = true) ∧
      (∀ a, st.declared a = true → st'.declared a = true) ∧ ∀ m : Store V, Prepared info val s A R m → ∃ m', runAll I truth ss m = some m' ∧ Done truth val s R m m' ∧ Reaches I truth R ss m
  | _, _, _, _, 0, _, _, _, _, _, _, _, _, _, _, _, _, hn => absurd hn (by omega)
  | .last b, X, A, P, n + 1, st, hpart, hs, hphi, hflat, hfull, hblk, hexit, hne, hA, hd, hpd, hn => by
    obtain ⟨d', ss, e, r⟩ := h.blockBody_ok (b := b) hs hA hd hpd hne
    have hrun : ∀ m : Store V, Prepared info val s A (.last b) m → ∃ m', runAll I truth ss m = some m' ∧ Done truth val s (.last b) m m' ∧ Reaches I truth (.last b) ss m := by
      intro m hm
      obtain ⟨m', h1, h2, h3, h4, h5, h6, h7, h8, h9⟩ := r.run m hm.on hm.holds
        (fun v hv hp hdv => hm.phis v hv hp v (.own (isPhi_iff.2 hp) (by
          rw [declares, if_pos (isPhi_iff.2 hp)] at hdv
          simpa using hdv)))
        (fun v hv hp => hm.fresh b (by simp [Reg.blocks]) v hv (.inr hp))
        (fun x hx hsx t ht => by
          cases ht with
          | own h1 _ => rw [isPhi_iff.1 h1] at hsx; cases hsx
          | step h1 h2 h3 => exact hm.chan x hx (.inr fun hp => by rw [hp] at hsx; cases hsx) _ h1 (isPhi_iff.1 h2) t h3)
      refine ⟨m', h1, ⟨by simpa [Reg.path] using h2, h3, ?_, h5, h7, fun a ha hns => h9 a ha fun x hx hsx ht => ?_⟩, fun b k hk => by simp [Reg.exits] at hk⟩
      rotate_left
      · cases ht with
        | own h1 _ => rw [isPhi_iff.1 h1] at hsx; cases hsx
        | step h1 h2 h3 => exact hns ⟨x, hx, .inr fun hp => (by rw [hp] at hsx; cases hsx), _, h1, isPhi_iff.1 h2, h3⟩
      intro x hx p hp hphi t ht
      by_cases hsx : silent (s.node x).op = true
      · obtain ⟨d, hdp⟩ := h.use hp
        rcases h.clean.args d p hdp x (mem_uses.1 hp).2 hsx with hxp | ⟨hj, _⟩
        · exact h5 t (hm.phis x hx hxp t (.step hp (isPhi_iff.2 hphi) ht))
        · rw [hphi] at hj; cases hj
      · exact h6 x hx (by simpa using hsx) t (.step hp (isPhi_iff.2 hphi) ht)
    have hjump : (s.desc b).length = 1 → s.endsInJump b = false := by
      intro hl
      cases hj : s.endsInJump b with
      | false => rfl
      | true =>
        exfalso
        rw [endsInJump] at hj
        cases hg : (s.ops b).getLast? with
        | none => rw [hg] at hj; cases hj
        | some u =>
          rw [hg] at hj
          have := h.clean.jumps b u (List.mem_of_getLast? hg) (by simpa using hj)
          omega
    have hnb : b ∉ st.blocked := hblk b (by simp [Reg.blocks])
    rcases hexit with he | ⟨k, he, hk⟩
    · have he : s.desc b = [] := he
      refine ⟨⟨d', st.blocked⟩, ss, ?_, rfl, r.declared.1, r.grow, hrun⟩
      change s.processBlock info (n + 1) st b = _
      rw [processBlock, if_neg hnb]
      simp only [e, he]
    · have he : s.desc b = [k] := he
      obtain ⟨n', rfl⟩ : ∃ n', n = n' + 1 := ⟨n - 1, by simp [Reg.blocks] at hn; omega⟩
      refine ⟨⟨d', st.blocked⟩, ss, ?_, rfl, r.declared.1, r.grow, hrun⟩
      change s.processBlock info (n' + 1 + 1) st b = _
      rw [processBlock, if_neg hnb]
      simp only [e, he, hjump (by rw [he]; rfl)]
      rw [processBlock, if_pos hk]
      simp
  | .ite b l r rest, X, A, P, n + 1, st, hpart, hs, hphi, hflat, hfull, hblk, hexit, hne, hA, hd, hpd, hn => by
    have hs' := hs
    simp only [Scoped] at hs'
    obtain ⟨ho, c, hj, sl, sr, srest⟩ := hs'
    obtain ⟨⟨p0, hp0, hphi0⟩, pl, pr, prest⟩ := hphi
    obtain ⟨fl, fr, frest⟩ := hflat
    obtain ⟨partl, partr, partrest⟩ := hpart.ite
    have hlay := hpart.lay
    simp only [Lay] at hlay
    obtain ⟨l1, l2, l3, l4, l5, l6, l7, l8, l9⟩ := hlay
    have hnod := hpart.nodup
    rw [show (Reg.ite b l r rest).blocks ++ X = b :: (l.blocks ++ (r.blocks ++ (rest.blocks ++ X))) by simp [Reg.blocks]] at hnod
    obtain ⟨nb, n1⟩ := List.nodup_cons.1 hnod
    have disl := (List.nodup_append.1 n1).2.2
    have disr := (List.nodup_append.1 (List.nodup_append.1 n1).2.1).2.2
    have hMrest := rest.entry_mem
    have hlM : ∀ x ∈ l.blocks, x ≠ rest.entry := fun x hx => disl x hx _ (by simp [hMrest])
    have hrM : ∀ x ∈ r.blocks, x ≠ rest.entry := fun x hx => disr x hx _ (by simp [hMrest])
    have hbM : rest.entry ≠ b := by rintro e; exact nb (by simp [← e, hMrest])
    have hlen : (Reg.ite b l r rest).blocks.length = 1 + l.blocks.length + r.blocks.length + rest.blocks.length := by simp [Reg.blocks]; omega
    have hdb2 : (s.desc b).length = 2 := by rw [l1]; rfl
    obtain ⟨hends, htgt, hbne⟩ := hj.ends
    obtain ⟨d', ss, e, rb⟩ := h.blockBody_ok (b := b) ho hA hd hpd fun _ => hbne
    have hmerge := merge_join (s := s) (l := l) (rest := rest) (rb := r.blocks) (X := X) (re := r.entry) l7 l4 (arm_next r l8 l5) (.inl r.entry_mem) (Reg.blocks_cons rest)
      partl.later partl.nodup partl.len
    have hphiM : ∀ p ∈ s.ops rest.entry, (s.node p).op = .phi → PhiVal truth val s c l.exit r.exit p := fun p hp hph => opsOk_phi hph _ _ srest.entry_ok hp
    obtain ⟨x0, y0, _, hx0, hy0, _, hcn, _⟩ := hphiM p0 hp0 hphi0
    have hnb : b ∉ st.blocked := hblk b (by simp [Reg.blocks])
    have hnM : rest.entry ∉ st.blocked := hblk _ (by simp [Reg.blocks, hMrest])
    have hd1 : Declared info s (fun a => A a ∨ a ∈ s.ops b) (declareAll d' (s.declaredPhis rest.entry)) := by
      refine ⟨fun a ha => ?_, fun a ha hda => by simp [declareAll, rb.declared.2 a ha hda]⟩
      simp only [declareAll, Bool.or_eq_true, List.contains_iff_mem] at ha
      rcases ha with ha | ha
      · exact rb.declared.1 a ha
      · simp only [declaredPhis, List.mem_filter, Bool.and_eq_true] at ha
        rw [declares, if_pos ha.2.1]
        exact ha.2.2
    have hnophi : ∀ (R : Reg) (A : Nat → Prop), Scoped s (PhiVal truth val s) A (fun _ => False) R → ∀ x ∈ s.ops R.entry, (s.node x).op ≠ .phi :=
      fun R A hR x hx hph => opsOk_phi hph _ _ hR.entry_ok hx
    obtain ⟨⟨dl, bl⟩, ssl, el, hbl, decl, growl, runl⟩ := h.region_ok l _ _ _ n ⟨declareAll d' (s.declaredPhis rest.entry), rest.entry :: st.blocked⟩ partl sl pl fl.flat
      (fun b k hk => absurd hk fl.exits) (fun x hx hm => by
        rcases List.mem_cons.1 hm with hm | hm
        · exact hlM x hx hm
        · exact hblk x (by simp [Reg.blocks, hx]) hm) (.inr ⟨_, l4, List.mem_cons_self⟩) (fun _ he => by rw [he] at hx0; cases hx0) rb.closed hd1
      (fun v hv hp => absurd hp (hnophi l _ sl v hv)) (by omega)
    subst hbl
    have hd2 : Declared info s (fun a => A a ∨ a ∈ s.ops b) dl := ⟨decl, fun a ha hda => growl a (hd1.2 a ha hda)⟩
    obtain ⟨⟨dr, br⟩, ssr, er, hbr, decr, growr, runr⟩ := h.region_ok r _ _ _ n ⟨dl, rest.entry :: st.blocked⟩ partr sr pr fr.flat
      (fun b k hk => absurd hk fr.exits) (fun x hx hm => by
        rcases List.mem_cons.1 hm with hm | hm
        · exact hrM x hx hm
        · exact hblk x (by simp [Reg.blocks, hx]) hm) (.inr ⟨_, l5, List.mem_cons_self⟩) (fun _ he => by rw [he] at hy0; cases hy0) rb.closed hd2
      (fun v hv hp => absurd hp (hnophi r _ sr v hv)) (by omega)
    subst hbr
    have hd3 : Declared info s (fun a => A a ∨ a ∈ s.ops b) dr := ⟨decr, fun a ha hda => growr a (hd2.2 a ha hda)⟩
    obtain ⟨⟨dn, bn⟩, ssn, en, hbn, decn, grown, runn⟩ := h.region_ok rest _ _ _ n ⟨dr, st.blocked⟩ partrest srest prest frest hfull
      (fun x hx => hblk x (by simp [Reg.blocks, hx])) hexit hne rb.closed hd3
      (fun v hv hp hdv => by
        refine growr v (growl v ?_)
        simp only [declareAll, Bool.or_eq_true, List.contains_iff_mem]
        right
        rw [declares, if_pos (isPhi_iff.2 hp)] at hdv
        simp [declaredPhis, hv, isPhi_iff.2 hp, hdv]) (by omega)
    have hAc : A c ∨ c ∈ s.ops b := by
      obtain ⟨u, hu1, hu2⟩ := hj
      exact opsOk_args _ _ ho u (List.mem_of_getLast? hu1) (by rw [hu2]; exact fun h => nomatch h) c (by rw [hu2]; exact List.mem_singleton.2 rfl)
    obtain ⟨ce, ece, hce⟩ := h.condition_ok rb.closed hd3 hj hcn hAc
    refine ⟨⟨dn, bn⟩, ss ++ (s.declaredPhis rest.entry).map .declare ++ [.branch ce ssl ssr] ++ ssn, ?_, hbn, decn, fun a ha => ?_, ?_⟩
    · change s.processBlock info (n + 1) st b = _
      have hfil : (rest.entry :: st.blocked).filter (· ≠ rest.entry) = st.blocked := by
        rw [List.filter_cons_of_neg (by simp), List.filter_eq_self]
        intro x hx
        have hxe : x ≠ rest.entry := by rintro rfl; exact hnM hx
        simpa using hxe
      rw [processBlock, if_neg hnb]
      simp only [e, l1, hends, hmerge, if_neg hnM, el, htgt]
      cases hop : (s.node c).op with
      | outputRequired k => exact absurd hop (hcn k)
      | _ => simp only [er, ece, hfil, en]
    · refine grown a (growr a (growl a ?_))
      simp [declareAll, rb.grow a ha]
    · intro m hm
      obtain ⟨m1, q1, q2, q3, q4, q5, q6, q7, q8, q9⟩ := rb.run m hm.on hm.holds
        (fun v hv hp hdv => hm.phis v hv hp v (.own (isPhi_iff.2 hp) (by
          rw [declares, if_pos (isPhi_iff.2 hp)] at hdv
          simpa using hdv)))
        (fun v hv hp => hm.fresh b (by simp [Reg.blocks]) v hv (.inr hp))
        (fun x hx hsx t ht => (h.no_target hx hsx (by omega) ht).elim)
      have hret1 : m1.returned = false := by
        cases hr : m1.returned with
        | false => rfl
        | true => have := q3 hr; rw [l1] at this; cases this
      have hfresh1 : ∀ d ∈ (Reg.ite b l r rest).blocks, d ≠ b → ∀ v ∈ s.ops d, m1.vars v = none := fun d hd hdb v hv =>
        q8 v (fun hvb => hdb (h.placed.same hv hvb)) (hm.fresh d hd v hv (.inl hdb))
      obtain ⟨v2, r1, r2, r3⟩ := declare_ok (I := I) (truth := truth) (s.declaredPhis rest.entry) m1 hret1 ((h.placed.nodup _).filter _)
        (fun p hp => hfresh1 rest.entry (by simp [Reg.blocks, hMrest]) hbM p (List.mem_filter.1 hp).1)
      have hk2 : ∀ a, (m1.vars a).isSome → v2 a = m1.vars a := fun a ha => r3 a fun hp => by
        rw [hfresh1 rest.entry (by simp [Reg.blocks, hMrest]) hbM a (List.mem_filter.1 hp).1] at ha
        cases ha
      have hkeep2 : ∀ a, m1.vars a = some (some (val a)) → v2 a = some (some (val a)) := fun a ha => by rw [hk2 a (by rw [ha]; rfl)]; exact ha
      have hvis2 : ∀ a, (m.vars a).isSome → (v2 a).isSome := fun a ha => by rw [hk2 a (q7 a ha)]; exact q7 a ha
      have hholds2 : Holds info s val (fun a => A a ∨ a ∈ s.ops b) v2 := fun a ha hda => hkeep2 a (q4 a ha hda)
      have hfresh2 : ∀ d ∈ (Reg.ite b l r rest).blocks, d ≠ b → ∀ v ∈ s.ops d, d ≠ rest.entry ∨ (s.node v).op ≠ .phi → v2 v = none := by
        intro d hd hdb v hv hor
        rw [r3 v]
        · exact hfresh1 d hd hdb v hv
        · intro hp
          simp only [declaredPhis, List.mem_filter, Bool.and_eq_true] at hp
          rcases hor with hor | hor
          · exact hor (h.placed.same hv hp.1)
          · exact hor (isPhi_iff.1 hp.2.1)
      have hexb : (Reg.ite b l r rest).exit ≠ (Reg.ite b l r rest).entry := fun e => nb (by
        have e : rest.exit = b := e
        simp [← e, rest.exit_mem])
      have hframe2 : ∀ a, m.vars a = some none → v2 a = some none := fun a ha => by
        have h1 := q9 a ha fun x hx hsx ht => h.no_target hx hsx (by omega) ht
        rw [hk2 a (by rw [h1]; rfl)]
        exact h1
      have hout : ∀ p ∈ s.ops rest.entry, (s.node p).op = .phi → ∀ q ∈ s.uses p, (s.node q).op = .phi → ∀ t, Target s q t → v2 t = some none ∧ val t = val p := by
        intro p hp hph q hq hqp t ht
        rcases lay_entry rest l9 with he | he
        · obtain ⟨h1, h2⟩ := hm.chan p (by rw [he] at hp; exact hp) (.inl hexb) q hq hqp t ht
          exact ⟨hframe2 t h1, h2⟩
        · obtain ⟨d, hd⟩ := h.use hq
          rw [h.phi_use hp hq hqp hd] at he
          cases he
      have htaken : taken truth s val b = truth (val c) := by simp [taken, jumpCondition_of hj]
      have hlr : l.exit ≠ r.exit := disl _ l.exit_mem _ (by simp [r.exit_mem])
      have harm : ∃ (R' : Reg) (m3 : Store V), (if truth (val c) then runAll I truth ssl { m1 with vars := v2 } else runAll I truth ssr { m1 with vars := v2 }) = some m3 ∧
          Done truth val s R' { m1 with vars := v2 } m3 ∧ Prepared info val s (fun a => A a ∨ a ∈ s.ops b) R' { m1 with vars := v2 } ∧ Side val s rest.entry R' ∧
          s.desc R'.exit = [rest.entry] ∧ (∀ x ∈ s.ops R'.entry, (s.node x).op ≠ .phi) ∧ R'.path (taken truth s val) = if taken truth s val b then l.path (taken truth s val) else r.path (taken truth s val) := by
        cases ht : truth (val c) with
        | true =>
          have hside : Side val s rest.entry l := by
            intro p hp hph
            obtain ⟨x, y, en, hx, hy, hv, _⟩ := hphiM p hp hph
            refine ⟨x, hx, by rw [en]; simp, ?_, by rw [hv, ht]; rfl⟩
            intro x' hx' hxl
            rw [en] at hx'
            rcases List.mem_cons.1 hx' with h' | h'
            · exact h'
            · rw [List.mem_singleton.1 h'] at hxl
              exact absurd (h.placed.same hxl hy) hlr
          have hready := h.arm_ready (A := fun a => A a ∨ a ∈ s.ops b) (m := { m1 with vars := v2 }) hside l4 hret1 hholds2 (hnophi l _ sl)
            (fun d hd v hv => hfresh2 d (by simp [Reg.blocks, hd]) (by rintro rfl; exact nb (by simp [hd])) v hv (.inl (hlM d hd))) r2 hout
          obtain ⟨m3, a1, a2, _⟩ := runl _ hready
          exact ⟨l, m3, by rw [if_pos rfl]; exact a1, a2, hready, hside, l4, hnophi l _ sl, by rw [htaken, ht, if_pos rfl]⟩
        | false =>
          have hside : Side val s rest.entry r := by
            intro p hp hph
            obtain ⟨x, y, en, hx, hy, hv, _⟩ := hphiM p hp hph
            refine ⟨y, hy, by rw [en]; simp, ?_, by rw [hv, ht]; rfl⟩
            intro x' hx' hxl
            rw [en] at hx'
            rcases List.mem_cons.1 hx' with h' | h'
            · rw [h'] at hxl
              exact absurd (h.placed.same hx hxl) hlr
            · exact List.mem_singleton.1 h'
          have hready := h.arm_ready (A := fun a => A a ∨ a ∈ s.ops b) (m := { m1 with vars := v2 }) hside l5 hret1 hholds2 (hnophi r _ sr)
            (fun d hd v hv => hfresh2 d (by simp [Reg.blocks, hd]) (by rintro rfl; exact nb (by simp [hd])) v hv (.inl (hrM d hd))) r2 hout
          obtain ⟨m3, a1, a2, _⟩ := runr _ hready
          exact ⟨r, m3, by rw [if_neg (by simp)]; exact a1, a2, hready, hside, l5, hnophi r _ sr, by rw [htaken, ht, if_neg (by simp)]⟩
      obtain ⟨R', m3, a1, a2, hready, hside, hex, hnp, hpath⟩ := harm
      have hsent : ∀ a, m.vars a = some none → Sent s R' a → ∃ p ∈ s.ops rest.entry, (s.node p).op = .phi ∧ Target s p a ∧ rest.exit = rest.entry ∧
          ∃ q ∈ s.uses p, (s.node q).op = .phi ∧ Target s q a := by
        rintro a ha ⟨x, hx, _, p, hp, hph, ht⟩
        obtain ⟨d, hd⟩ := h.use hp
        have hdd := h.phi_use hx hp hph hd
        rw [hex] at hdd
        cases hdd
        have ht' := ht
        cases ht' with
        | own _ _ =>
          rw [hm.fresh rest.entry (by simp [Reg.blocks, hMrest]) _ hd (.inl hbM)] at ha
          cases ha
        | step h1 h2 h3 =>
          refine ⟨p, hd, hph, ht, ?_, _, h1, isPhi_iff.1 h2, h3⟩
          rcases lay_entry rest l9 with he | he
          · exact he.symm
          · obtain ⟨d, hd'⟩ := h.use h1
            rw [h.phi_use hd h1 (isPhi_iff.1 h2) hd'] at he
            cases he
      have hret3 : m3.returned = false := by
        cases hr : m3.returned with
        | false => rfl
        | true => have := a2.ret hr; rw [hex] at this; cases this
      have hstep : (Stmt.branch ce ssl ssr).run I truth { m1 with vars := v2 } = some (Store.leave { m1 with vars := v2 } m3) := by
        change (match ce.eval I v2 with
          | some x => match if truth x then runAll I truth ssl { m1 with vars := v2 } else runAll I truth ssr { m1 with vars := v2 } with
            | some m' => some (Store.leave { m1 with vars := v2 } m')
            | none => none
          | none => none) = _
        rw [hce v2 hholds2]
        simp only [a1]
      obtain ⟨m5, b1, b2, b3⟩ := runn (Store.leave { m1 with vars := v2 } m3) (by
        refine ⟨hret3, fun a ha hda => leave_keep a2 (hholds2 a ha hda), h.arm_phis hside hready hnp a2, ?_, ?_⟩
        · intro d hd v hv hor
          exact leave_none (hfresh2 d (by simp [Reg.blocks, hd]) (by rintro rfl; exact nb (by simp [hd])) v hv hor)
        · intro x hx hor p hp hph t ht
          obtain ⟨h1, h2⟩ := hm.chan x hx (.inl hexb) p hp hph t ht
          refine ⟨leave_frame a2 (hframe2 t h1) fun hst => ?_, h2⟩
          obtain ⟨p', hp', hph', ht', he, _⟩ := hsent t h1 hst
          have hx' : x ∈ s.ops rest.entry := by rw [← he]; exact hx
          have := h.target_unique (.step hp (isPhi_iff.2 hph) ht) hx' hp' ht'
          subst this
          rcases hor with hor | hor
          · exact hor he
          · exact hor hph')
      have hpre : ∀ l', runAll I truth (ss ++ (s.declaredPhis rest.entry).map .declare ++ [.branch ce ssl ssr] ++ l') m =
          runAll I truth l' (Store.leave { m1 with vars := v2 } m3) := by
        intro l'
        rw [runAll_append, runAll_append, runAll_append, q1]
        simp only [Option.bind_some]
        rw [r1]
        simp only [Option.bind_some]
        rw [runAll_cons (m := { m1 with vars := v2 }) hret1 hstep]
        rfl
      refine ⟨m5, ?_, ⟨?_, b2.ret, b2.chan, fun a ha => b2.keep a (leave_keep a2 (hkeep2 a (q5 a ha))), fun a ha => b2.vis a (leave_vis a2 (hvis2 a ha)), fun a ha hns =>
        b2.frame a (leave_frame a2 (hframe2 a ha) fun hst => ?_) fun hst => ?_⟩, fun b' k hk => ?_⟩
      rotate_left 2
      · obtain ⟨p', hp', hph', ht', he, q, hq, hqp, hqt⟩ := hsent a ha hst
        exact hns ⟨p', by rw [← he] at hp'; exact hp', .inl hexb, q, hq, hqp, hqt⟩
      · obtain ⟨x, hx, _, p, hp, hph, ht⟩ := hst
        exact hns ⟨x, hx, .inl hexb, p, hp, hph, ht⟩
      · obtain ⟨pre, body, post, m', e1, e2, e3⟩ := b3 b' k hk
        exact ⟨ss ++ (s.declaredPhis rest.entry).map .declare ++ [.branch ce ssl ssr] ++ pre, body, post, m', by rw [e1]; simp, by rw [hpre]; exact e2, e3⟩
      · rw [runAll_append, runAll_append, runAll_append, q1]
        simp only [Option.bind_some]
        rw [r1]
        simp only [Option.bind_some]
        rw [runAll_cons (m := { m1 with vars := v2 }) hret1 hstep]
        exact b1
      · rw [b2.out]
        change m3.out ++ _ = _
        rw [a2.out]
        change (m1.out ++ _) ++ _ = _
        rw [q2, hpath, Reg.path]
        simp [List.flatMap_cons, List.flatMap_append]
  | .opt b k l rest, X, A, P, n + 1, st, hpart, hs, hphi, hflat, hfull, hblk, hexit, hne, hA, hd, hpd, hn => by
    have hs' := hs
    simp only [Scoped] at hs'
    obtain ⟨ho, c, hj, ⟨hcb, hcn⟩, sl, srest⟩ := hs'
    obtain ⟨pl, prest⟩ := hphi
    obtain ⟨fl, frest⟩ := hflat
    obtain ⟨partl, partrest⟩ := hpart.opt
    have hlay := hpart.lay
    simp only [Lay] at hlay
    obtain ⟨l1, l2, l4, l6, l7, l9⟩ := hlay
    have hnod := hpart.nodup
    rw [show (Reg.opt b k l rest).blocks ++ X = b :: (l.blocks ++ (rest.blocks ++ X)) by simp [Reg.blocks]] at hnod
    obtain ⟨nb, n1⟩ := List.nodup_cons.1 hnod
    have disl := (List.nodup_append.1 n1).2.2
    have hMrest := rest.entry_mem
    have hlM : ∀ x ∈ l.blocks, x ≠ rest.entry := fun x hx => disl x hx _ (by simp [hMrest])
    have hlen : (Reg.opt b k l rest).blocks.length = 1 + l.blocks.length + rest.blocks.length := by simp [Reg.blocks]; omega
    have hdb2 : (s.desc b).length = 2 := by rw [l1]; rfl
    obtain ⟨hends, htgt, hbne⟩ := hj.ends
    obtain ⟨d', ss, e, rb⟩ := h.blockBody_ok (b := b) ho hA hd hpd fun _ => hbne
    have hmerge := merge_join (s := s) (l := l) (rest := rest) (rb := []) (X := X) (re := rest.entry) l7 l4 (fun x hx => nomatch hx) (.inr rfl) (Reg.blocks_cons rest)
      partl.later partl.nodup partl.len
    have hnb : b ∉ st.blocked := hblk b (by simp [Reg.blocks])
    have hnM : rest.entry ∉ st.blocked := hblk _ (by simp [Reg.blocks, hMrest])
    have hnophi : ∀ (R : Reg) (A : Nat → Prop), Scoped s (PhiVal truth val s) A (fun _ => False) R → ∀ x ∈ s.ops R.entry, (s.node x).op ≠ .phi :=
      fun R A hR x hx hph => opsOk_phi hph _ _ hR.entry_ok hx
    have hnone : s.declaredPhis rest.entry = [] := by
      rw [declaredPhis, List.filter_eq_nil_iff]
      intro x hx
      rw [not_isPhi.2 (hnophi rest _ srest x hx)]
      simp
    have hdall : declareAll d' [] = d' := by funext a; simp [declareAll]
    obtain ⟨⟨dl, bl⟩, ssl, el, hbl, decl, growl, runl⟩ := h.region_ok l _ _ _ n ⟨d', rest.entry :: st.blocked⟩ partl sl pl fl.flat
      (fun b k hk => absurd hk fl.exits) (fun x hx hm => by
        rcases List.mem_cons.1 hm with hm | hm
        · exact hlM x hx hm
        · exact hblk x (by simp [Reg.blocks, hx]) hm) (.inr ⟨_, l4, List.mem_cons_self⟩) (fun _ => hfull l.exit k (by simp [Reg.exits])) rb.closed rb.declared
      (fun v hv hp => absurd hp (hnophi l _ sl v hv)) (by omega)
    subst hbl
    have hd2 : Declared info s (fun a => A a ∨ a ∈ s.ops b) dl := ⟨decl, fun a ha hda => growl a (rb.declared.2 a ha hda)⟩
    obtain ⟨⟨dn, bn⟩, ssn, en, hbn, decn, grown, runn⟩ := h.region_ok rest _ _ _ n ⟨dl, st.blocked⟩ partrest srest prest frest
      (fun b k hk => hfull b k (by simp [Reg.exits, hk]))
      (fun x hx => hblk x (by simp [Reg.blocks, hx])) hexit hne rb.closed hd2
      (fun v hv hp => absurd hp (hnophi rest _ srest v hv)) (by omega)
    refine ⟨⟨dn, bn⟩, ss ++ [.optional k ssl] ++ ssn, ?_, hbn, decn, fun a ha => grown a (growl a (rb.grow a ha)), ?_⟩
    · change s.processBlock info (n + 1) st b = _
      have hfil : (rest.entry :: st.blocked).filter (· ≠ rest.entry) = st.blocked := by
        rw [List.filter_cons_of_neg (by simp), List.filter_eq_self]
        intro x hx
        have hxe : x ≠ rest.entry := by rintro rfl; exact hnM hx
        simpa using hxe
      rw [processBlock, if_neg hnb]
      simp only [e, l1, hends, hmerge, if_neg hnM, hnone, hdall, el, htgt, hcn, hfil, en]
      simp
    · intro m hm
      obtain ⟨m1, q1, q2, q3, q4, q5, q6, q7, q8, q9⟩ := rb.run m hm.on hm.holds
        (fun v hv hp hdv => hm.phis v hv hp v (.own (isPhi_iff.2 hp) (by
          rw [declares, if_pos (isPhi_iff.2 hp)] at hdv
          simpa using hdv)))
        (fun v hv hp => hm.fresh b (by simp [Reg.blocks]) v hv (.inr hp))
        (fun x hx hsx t ht => (h.no_target hx hsx (by omega) ht).elim)
      have hret1 : m1.returned = false := by
        cases hr : m1.returned with
        | false => rfl
        | true => have := q3 hr; rw [l1] at this; cases this
      have hfresh1 : ∀ d ∈ (Reg.opt b k l rest).blocks, d ≠ b → ∀ v ∈ s.ops d, m1.vars v = none := fun d hd hdb v hv =>
        q8 v (fun hvb => hdb (h.placed.same hv hvb)) (hm.fresh d hd v hv (.inl hdb))
      have hvc : val c = I.f (.outputRequired k) [] := by
        have := h.clean.value b c hcb (by rw [hcn]; exact fun h => nomatch h)
        rw [hcn] at this
        exact this
      have htaken : taken truth s val b = truth (I.f (.outputRequired k) []) := by rw [← hvc]; simp [taken, jumpCondition_of hj]
      have hready : Prepared info val s (fun a => A a ∨ a ∈ s.ops b) l m1 := by
        refine ⟨hret1, q4, fun x hx hp => absurd hp (hnophi l _ sl x hx), fun d hd v hv _ => hfresh1 d (by simp [Reg.blocks, hd]) (by rintro rfl; exact nb (by simp [hd])) v hv, ?_⟩
        intro x hx _ p hp hph t ht
        obtain ⟨d, hd⟩ := h.use hp
        have := h.phi_use hx hp hph hd
        rw [l4] at this
        cases this
        exact absurd hph (hnophi rest _ srest p hd)
      have harm : ∃ m4 : Store V, (Stmt.optional k ssl).run I truth m1 = some m4 ∧ m4.returned = false ∧
          m4.out = m1.out ++ (if taken truth s val b then l.path (taken truth s val) else []).flatMap (fun b => written s val (s.ops b)) ∧
          (∀ a, m1.vars a = some (some (val a)) → m4.vars a = some (some (val a))) ∧ (∀ a, (m1.vars a).isSome → (m4.vars a).isSome) ∧
          (∀ a, m1.vars a = none → m4.vars a = none) ∧ ∀ a, m1.vars a = some none → m4.vars a = some none := by
        have hns : ∀ a, ¬ Sent s l a := by
          rintro a ⟨x, hx, _, p, hp, hph, _⟩
          obtain ⟨d, hd⟩ := h.use hp
          have := h.phi_use hx hp hph hd
          rw [l4] at this
          cases this
          exact hnophi rest _ srest p hd hph
        have hrun : (Stmt.optional k ssl).run I truth m1 = if truth (I.f (.outputRequired k) []) then
            match runAll I truth ssl m1 with
            | some m' => some (m1.leave m')
            | none => none
          else some m1 := rfl
        rw [hrun, htaken]
        cases ht : truth (I.f (.outputRequired k) []) with
        | true =>
          obtain ⟨m3, a1, a2, _⟩ := runl m1 hready
          have hret3 : m3.returned = false := by
            cases hr : m3.returned with
            | false => rfl
            | true => have := a2.ret hr; rw [l4] at this; cases this
          exact ⟨m1.leave m3, by rw [if_pos rfl, a1], hret3, by rw [if_pos rfl]; exact a2.out, fun a ha => leave_keep a2 ha, fun a ha => leave_vis a2 ha, fun a ha => leave_none ha,
            fun a ha => leave_frame a2 ha (hns a)⟩
        | false => exact ⟨m1, by rw [if_neg (by simp)], hret1, by simp, fun _ h => h, fun _ h => h, fun _ h => h, fun _ h => h⟩
      obtain ⟨m4, c1, c2, c3, c4, c5, c6, c7⟩ := harm
      have hexb : (Reg.opt b k l rest).exit ≠ (Reg.opt b k l rest).entry := fun e => nb (by
        have e : rest.exit = b := e
        simp [← e, rest.exit_mem])
      have hframe4 : ∀ a, m.vars a = some none → m4.vars a = some none := fun a ha =>
        c7 a (q9 a ha fun x hx hsx ht => h.no_target hx hsx (by omega) ht)
      obtain ⟨m5, b1, b2, b3⟩ := runn m4 (by
        refine ⟨c2, fun a ha hda => c4 a (q4 a ha hda), fun x hx hp => absurd hp (hnophi rest _ srest x hx), ?_, ?_⟩
        · intro d hd v hv _
          exact c6 v (hfresh1 d (by simp [Reg.blocks, hd]) (by rintro rfl; exact nb (by simp [hd])) v hv)
        · intro x hx _ p hp hph t ht
          obtain ⟨h1, h2⟩ := hm.chan x hx (.inl hexb) p hp hph t ht
          exact ⟨hframe4 t h1, h2⟩)
      refine ⟨m5, ?_, ⟨?_, b2.ret, b2.chan, fun a ha => b2.keep a (c4 a (q5 a ha)), fun a ha => b2.vis a (c5 a (q7 a ha)), fun a ha hns =>
        b2.frame a (hframe4 a ha) fun ⟨x, hx, _, p, hp, hph, ht⟩ => hns ⟨x, hx, .inl hexb, p, hp, hph, ht⟩⟩, fun b' k' hk => ?_⟩
      rotate_left 2
      · have hk : (b', k') = (l.exit, k) ∨ (b', some k') ∈ rest.exits := by simpa [Reg.exits] using hk
        rcases hk with hk | hk
        · cases hk
          exact ⟨ss, ssl, ssn, m1, by simp, q1, hret1⟩
        · obtain ⟨pre, body, post, m', e1, e2, e3⟩ := b3 b' k' hk
          refine ⟨ss ++ [.optional k ssl] ++ pre, body, post, m', by rw [e1]; simp, ?_, e3⟩
          rw [runAll_append, runAll_append, q1]
          simp only [Option.bind_some]
          rw [runAll_cons hret1 c1]
          exact e2
      · rw [runAll_append, runAll_append, q1]
        simp only [Option.bind_some]
        rw [runAll_cons hret1 c1]
        exact b1
      · rw [b2.out, c3, q2, Reg.path]
        simp [List.flatMap_cons, List.flatMap_append]

end

end Wf.Gen
