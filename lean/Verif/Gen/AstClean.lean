import Verif.Gen.AstOrder

/-!
# What is known about a converted program (used in proofs)

The facts hold before useless copies are removed, and the removal of a copy keeps them.
-/

namespace Wf.Gen

open Conv

variable {V : Type} [Arith V]

/-- The phi function `v` selects by the truth of `c` between values of the blocks `l` and `r`. -/
def PhiVal (truth : V → Bool) (val : Nat → V) (s : Conv) (c l r v : Nat) : Prop :=
  ∃ x y, s.node v = ⟨.phi, [x, y]⟩ ∧ x ∈ s.ops l ∧ y ∈ s.ops r ∧ (val v = if truth (val c) then val x else val y) ∧
    (∀ k, (s.node c).op ≠ .outputRequired k) ∧ ∃ b, v ∈ s.ops b

structure Clean (info : AstInfo) (g : Graph) (I : Interp V) (truth : V → Bool) (val : Nat → V) (W : Reg) (s : Conv) : Prop where
  scope : Scoped s (PhiVal truth val s) (fun _ => False) (fun _ => False) W
  inside : ∀ b, ∀ v ∈ s.ops b, b ∈ W.blocks
  value : ∀ b, ∀ v ∈ s.ops b, (s.node v).op ≠ .phi → val v = I.f (s.node v).op ((s.node v).args.map val)
  used : ∀ u ∈ s.live, ∀ a ∈ (s.node u).args, ∃ b, u ∈ s.ops b
  unary : ∀ b, ∀ v ∈ s.ops b, (∃ t, (s.node v).op = .cast t) ∨ (∃ k, (s.node v).op = .save k) → (s.node v).args.length = 1
  mul : ∀ b, ∀ v ∈ s.ops b, (s.node v).op = .mul → 2 ≤ (s.node v).args.length
  get : ∀ b, ∀ v ∈ s.ops b, ∀ i, (s.node v).op = .get i → info.scalarGet i = true → ∃ a f, (s.node v).args = [a] ∧ (s.node a).op = .callExternal f
  args : ∀ b, ∀ v ∈ s.ops b, ∀ a ∈ (s.node v).args, silent (s.node a).op = true →
    (s.node a).op = .phi ∨ ((s.node v).op = .jump ∧ ∃ k, (s.node a).op = .outputRequired k)
  phis : HasPhi s W
  jumps : ∀ b, ∀ v ∈ s.ops b, (s.node v).op = .jump → (s.desc b).length = 2
  full : ArmsFull s W
  ret : ∀ b, ∀ v ∈ s.ops b, ∀ key, (s.node v).op = .save key → info.usage key = .returnValue → b = W.exit ∧ (s.ops b).getLast? = some v
  matrix : ∀ b, ∀ v ∈ s.ops b, ∀ key, (s.node v).op = .save key → info.usage key ≠ .returnValue → info.kind key = .matrix → ∀ a ∈ (s.node v).args,
    ∃ t, (s.node a).op = .construct t ∧ info.matrix t = true
  struct : ∀ b, ∀ v ∈ s.ops b, ∀ key, (s.node v).op = .save key → info.usage key ≠ .returnValue → info.kind key = .struct → ∀ a ∈ (s.node v).args,
    (∃ t, (s.node a).op = .construct t ∧ info.matrix t = false) ∧ ∀ d, ∀ w ∈ s.ops d, a ∈ (s.node w).args → w = v
  saves : ∀ b, ∀ v ∈ s.ops b, ∀ key, (s.node v).op = .save key → v ∈ g.ops ∧ (g.node v).op = .save key ∧
    (s.node v).args.map val = (g.node v).args.map (run I g) ∧ (b, if info.usage key = .optional then some key else none) ∈ W.exits
  all : ∀ v ∈ g.ops, ∀ key, (g.node v).op = .save key → ∃ b, v ∈ s.ops b ∧ (s.node v).op = .save key

/-- Replace one operand. -/
def sub (v x a : Nat) : Nat := if a = v then x else a

theorem sub_of_ne {v x a : Nat} (h : a ≠ v) : sub v x a = a := if_neg h

theorem sub_self (v x : Nat) : sub v x v = x := if_pos rfl

theorem mem_replaceArg_sub {n : Node} {v x a : Nat} (h : a ∈ (replaceArg v x n).args) : ∃ a' ∈ n.args, a = sub v x a' := by
  rcases mem_replaceArg h with ⟨rfl, hv⟩ | ⟨ha, hne⟩ | ⟨ha, hv⟩
  · exact ⟨v, hv, (sub_self _ _).symm⟩
  · exact ⟨a, ha, (sub_of_ne hne).symm⟩
  · exact ⟨a, ha, (sub_of_ne (by rintro rfl; exact hv ha)).symm⟩

section Drop

variable {t : Conv} {v x b0 : Nat}

theorem drop_op (t : Conv) (v x u : Nat) : ((t.drop v x).node u).op = (t.node u).op := by
  simp only [Conv.drop, forward]
  by_cases h1 : u = v
  · rw [if_pos h1, h1]
  · rw [if_neg h1]
    by_cases h2 : u ∈ t.live
    · rw [if_pos h2, op_replaceArg]
    · rw [if_neg h2]

theorem opsOk_drop (hp : Placed t) (hv : t.node v = ⟨.copy, [x]⟩) (hx : x ≠ v) {P P' : Nat → Prop} : ∀ (l : List Nat) (A A' : Nat → Prop),
    (∀ u ∈ l, ∃ b, u ∈ t.ops b) → (∀ a, A a → A' (sub v x a)) → (∀ u ∈ l, u ≠ v → P u → P' u) → OpsOk t P A l →
    OpsOk (t.drop v x) P' A' (l.filter (· ≠ v))
  | [], _, _, _, _, _, _ => trivial
  | u :: us, A, A', hl, hA, hP, h => by
    have hA2 : ∀ a, (A a ∨ a = u) → (A' (sub v x a) ∨ sub v x a = u) ∨ (u = v ∧ A' (sub v x a)) := by
      rintro a (ha | rfl)
      · exact .inl (.inl (hA a ha))
      · by_cases hav : a = v
        · refine .inr ⟨hav, ?_⟩
          have h1 := h.1
          subst hav
          rw [hv, if_neg (by simp)] at h1
          have := hA x (h1 x (List.mem_singleton.2 rfl))
          rw [sub_of_ne hx] at this
          rw [sub_self]
          exact this
        · exact .inl (.inr (sub_of_ne hav))
    by_cases huv : u = v
    · rw [List.filter_cons_of_neg (by simpa using huv)]
      refine opsOk_drop hp hv hx us _ _ (fun w hw => hl w (List.mem_cons_of_mem _ hw)) (fun a ha => ?_) (fun w hw => hP w (List.mem_cons_of_mem _ hw)) h.2
      rcases hA2 a ha with (h' | h') | ⟨_, h'⟩
      · exact h'
      · exfalso
        by_cases hav : a = v
        · rw [hav, sub_self] at h'
          exact hx (h'.trans huv)
        · rw [sub_of_ne hav] at h'
          exact hav (h'.trans huv)
      · exact h'
    · rw [List.filter_cons_of_pos (by simpa using huv)]
      refine ⟨?_, opsOk_drop hp hv hx us _ _ (fun w hw => hl w (List.mem_cons_of_mem _ hw)) (fun a ha => ?_) (fun w hw => hP w (List.mem_cons_of_mem _ hw)) h.2⟩
      · obtain ⟨b, hb⟩ := hl u List.mem_cons_self
        have h1 := h.1
        rw [drop_op]
        by_cases hphi : (t.node u).op = .phi
        · rw [if_pos hphi] at h1 ⊢
          exact hP u List.mem_cons_self huv h1
        · rw [if_neg hphi] at h1 ⊢
          rw [drop_node hp hb huv]
          intro a ha
          obtain ⟨a', ha', rfl⟩ := mem_replaceArg_sub ha
          exact hA a' (h1 a' ha')
      · rcases hA2 a ha with h' | ⟨h', _⟩
        · exact h'
        · exact absurd h' huv

theorem jumps_drop (hp : Placed t) (hv : t.node v = ⟨.copy, [x]⟩) {b c : Nat} (h : Jumps t b c) : Jumps (t.drop v x) b (sub v x c) := by
  obtain ⟨u, h1, h2⟩ := h
  have huv : u ≠ v := by rintro rfl; rw [hv] at h2; cases h2
  refine ⟨u, getLast?_filter_ne h1 huv, ?_⟩
  rw [drop_node hp (List.mem_of_getLast? h1) huv, h2, replaceArg_one rfl]
  rfl

theorem scoped_drop (hp : Placed t) (hv : t.node v = ⟨.copy, [x]⟩) (hx : x ≠ v) {Φ Φ' : Nat → Nat → Nat → Nat → Prop}
    (hΦ : ∀ c l r u, u ≠ v → Φ c l r u → Φ' (sub v x c) l r u) : ∀ (R : Reg) (A A' P P' : Nat → Prop), (∀ a, A a → A' (sub v x a)) → (∀ u, u ≠ v → P u → P' u) →
    Scoped t Φ A P R → Scoped (t.drop v x) Φ' A' P' R := by
  have hsub : ∀ (b : Nat) (A A' P : Nat → Prop), (∀ a, A a → A' (sub v x a)) → OpsOk t P A (t.ops b) → ∀ a, (A a ∨ a ∈ t.ops b) →
      A' (sub v x a) ∨ sub v x a ∈ (t.drop v x).ops b := by
    rintro b A A' P hA ho a (ha | ha)
    · exact .inl (hA a ha)
    · by_cases hav : a = v
      · subst hav
        rw [sub_self]
        have hgen : ∀ (l : List Nat) (A : Nat → Prop), OpsOk t P A l → a ∈ l → A x ∨ x ∈ l := by
          intro l
          induction l with
          | nil => intro A _ h; cases h
          | cons w ws ih =>
            intro A ho h
            rcases List.mem_cons.1 h with rfl | h
            · have h1 := ho.1
              rw [hv, if_neg (by simp)] at h1
              exact .inl (h1 x (List.mem_singleton.2 rfl))
            · rcases ih _ ho.2 h with (h | h) | h
              · exact .inl h
              · exact .inr (by rw [h]; exact List.mem_cons_self)
              · exact .inr (List.mem_cons_of_mem _ h)
        rcases hgen _ _ ho ha with h | h
        · have := hA x h
          rw [sub_of_ne hx] at this
          exact .inl this
        · exact .inr (mem_drop_ops.2 ⟨h, hx⟩)
      · rw [sub_of_ne hav]
        exact .inr (mem_drop_ops.2 ⟨ha, hav⟩)
  intro R
  induction R with
  | last b => exact fun A A' P P' hA hP h => opsOk_drop hp hv hx _ _ _ (fun u hu => ⟨b, hu⟩) hA (fun u _ hu => hP u hu) h
  | ite b l r rest ihl ihr ihrest =>
    intro A A' P P' hA hP h
    simp only [Scoped] at h ⊢
    obtain ⟨ho, c, hj, hl, hr, hrest⟩ := h
    have h2 := hsub b A A' P hA ho
    exact ⟨opsOk_drop hp hv hx _ _ _ (fun u hu => ⟨b, hu⟩) hA (fun u _ hu => hP u hu) ho, sub v x c, jumps_drop hp hv hj,
      ihl _ _ _ _ h2 (fun _ _ h => h) hl, ihr _ _ _ _ h2 (fun _ _ h => h) hr, ihrest _ _ _ _ h2 (fun u hu h => hΦ _ _ _ u hu h) hrest⟩
  | opt b k l rest ihl ihrest =>
    intro A A' P P' hA hP h
    simp only [Scoped] at h ⊢
    obtain ⟨ho, c, hj, ⟨hc, hcn⟩, hl, hrest⟩ := h
    have h2 := hsub b A A' P hA ho
    have hcv : c ≠ v := by rintro rfl; rw [hv] at hcn; cases hcn
    refine ⟨opsOk_drop hp hv hx _ _ _ (fun u hu => ⟨b, hu⟩) hA (fun u _ hu => hP u hu) ho, c, ?_, ⟨mem_drop_ops.2 ⟨hc, hcv⟩, ?_⟩,
      ihl _ _ _ _ h2 (fun _ _ h => h) hl, ihrest _ _ _ _ h2 (fun _ _ h => h) hrest⟩
    · have := jumps_drop hp hv hj
      rwa [sub_of_ne hcv] at this
    · rw [drop_node hp hc hcv, hcn]
      simp [replaceArg]

end Drop

section

variable {info : AstInfo} {g : Graph} {I : Interp V} {truth : V → Bool} {val : Nat → V} {W : Reg} {t : Conv}

/-- All operations in order. -/
theorem Clean.nodup (hp : Placed t) (hn : W.blocks.Nodup) : (W.blocks.flatMap t.ops).Nodup := by
  rw [List.nodup_flatMap]
  refine ⟨fun b _ => hp.nodup b, hn.imp fun {b d} hbd => ?_⟩
  intro y hx hy
  have h1 := hp.parent b y hx
  rw [hp.parent d y hy] at h1
  cases h1
  exact hbd rfl

theorem Clean.before (h : Clean info g I truth val W t) : Before t (fun _ => False) (W.blocks.flatMap t.ops) :=
  Scoped.before (fun c l r v hp a ha => by
    obtain ⟨x, y, e, hx, hy, _⟩ := hp
    rw [e] at ha
    simp only [List.mem_cons, List.not_mem_nil, or_false] at ha
    rcases ha with rfl | rfl
    · exact .inl hx
    · exact .inr hy) W h.scope (fun _ h => h) (fun _ h => h.elim)

theorem Clean.mem (h : Clean info g I truth val W t) {b v : Nat} (hv : v ∈ t.ops b) : v ∈ W.blocks.flatMap t.ops :=
  List.mem_flatMap.2 ⟨b, h.inside b v hv, hv⟩

/-- Operands are computed somewhere, and earlier. -/
theorem Clean.rank (h : Clean info g I truth val W t) (hp : Placed t) (hn : W.blocks.Nodup) {b v a : Nat} (hv : v ∈ t.ops b) (ha : a ∈ (t.node v).args) :
    (∃ d, a ∈ t.ops d) ∧ rank t W a < rank t W v := by
  obtain ⟨h1, h2⟩ := h.before.idxOf (Clean.nodup hp hn) (h.mem hv) ha
  obtain ⟨d, _, hd⟩ := List.mem_flatMap.1 h1
  exact ⟨⟨d, hd⟩, h2⟩

theorem Clean.drop (h : Clean info g I truth val W t) (hp : Placed t) (hn : W.blocks.Nodup) {b0 v x : Nat} (hv : v ∈ t.ops b0)
    (hc : t.node v = ⟨.copy, [x]⟩) (hpar : t.parent x = t.parent v) : Clean info g I truth val W (t.drop v x) := by
  obtain ⟨⟨d0, hxd⟩, hlt⟩ := h.rank hp hn hv (a := x) (by rw [hc]; exact List.mem_singleton.2 rfl)
  have hx : x ≠ v := by rintro rfl; exact Nat.lt_irrefl _ hlt
  have hxb : ∀ b, v ∈ t.ops b → x ∈ t.ops b := by
    intro b hb
    rw [hp.parent d0 x hxd, hp.parent b v hb] at hpar
    cases hpar
    exact hxd
  have hval : val v = val x := by
    have := h.value b0 v hv (by rw [hc]; simp)
    rw [this, hc]
    exact I.copy _
  have hvsub : ∀ a, val (sub v x a) = val a := by
    intro a
    by_cases hav : a = v
    · rw [hav, sub_self, hval]
    · rw [sub_of_ne hav]
  have hopsub : ∀ b u, u ∈ t.ops b → u ≠ v → ∀ a ∈ ((t.drop v x).node u).args, ∃ a' ∈ (t.node u).args, a = sub v x a' := by
    intro b u hu huv a ha
    rw [drop_node hp hu huv] at ha
    exact mem_replaceArg_sub ha
  have hxs : ∀ k, (t.node x).op ≠ .outputRequired k := by
    intro k hk
    rcases h.args b0 v hv x (by rw [hc]; exact List.mem_singleton.2 rfl) (by rw [hk]; rfl) with h1 | ⟨h1, _⟩
    · rw [hk] at h1; cases h1
    · rw [hc] at h1; cases h1
  have hone : ∀ b u a, u ∈ t.ops b → u ≠ v → (t.node u).op.commutative = false → (t.node u).args = [a] → ((t.drop v x).node u).args = [sub v x a] := by
    intro b u a hu huv hcm ha
    rw [drop_node hp hu huv, replaceArg_not_comm hcm, ha]
    rfl
  have hnc : ∀ u, (t.node u).op ≠ .copy → u ≠ v := by
    rintro u hu rfl
    rw [hc] at hu
    exact hu rfl
  refine ⟨?_, ?_, ?_, ?_, ?_, ?_, ?_, ?_, ?_, ?_, ?_, ?_, ?_, ?_, ?_, ?_⟩
  · refine scoped_drop hp hc hx (fun c l r u huv hφ => ?_) W _ _ _ _ (fun _ h => h.elim) (fun _ _ h => h) h.scope
    obtain ⟨y, z, e, hy, hz, hval', hreq, b, hb⟩ := hφ
    have hmem : ∀ y l, y ∈ t.ops l → sub v x y ∈ (t.drop v x).ops l := by
      intro y l hy
      by_cases hyv : y = v
      · subst hyv
        rw [sub_self]
        exact mem_drop_ops.2 ⟨hxb l hy, hx⟩
      · rw [sub_of_ne hyv]
        exact mem_drop_ops.2 ⟨hy, hyv⟩
    refine ⟨sub v x y, sub v x z, ?_, hmem y l hy, hmem z r hz, ?_, ?_, b, mem_drop_ops.2 ⟨hb, huv⟩⟩
    · have h1 := drop_op t v x u
      have h2 : ((t.drop v x).node u).args = [sub v x y, sub v x z] := by
        rw [drop_node hp hb huv, replaceArg_not_comm (by rw [e]; rfl), e]
        rfl
      rw [e] at h1
      cases hn : (t.drop v x).node u
      rw [hn] at h1 h2
      simp only at h1 h2
      rw [h1, h2]
    · rw [hvsub, hvsub, hvsub]
      exact hval'
    · intro k
      rw [drop_op]
      by_cases hcv : c = v
      · rw [hcv, sub_self]
        exact hxs k
      · rw [sub_of_ne hcv]
        exact hreq k
  · exact fun b u hu => h.inside b u (mem_drop_ops.1 hu).1
  · intro b u hu hphi
    obtain ⟨hu, huv⟩ := mem_drop_ops.1 hu
    rw [drop_op] at hphi
    rw [drop_node hp hu huv, eval_replaceArg I val hval]
    exact h.value b u hu hphi
  · intro u hu a ha
    by_cases huv : u = v
    · subst huv
      simp [Conv.drop, forward] at ha
    · have : ∃ a', a' ∈ (t.node u).args := by
        change u ∈ t.live at hu
        simp only [Conv.drop, forward, if_neg huv, if_pos hu] at ha
        obtain ⟨a', ha', _⟩ := mem_replaceArg_sub ha
        exact ⟨a', ha'⟩
      obtain ⟨a', ha'⟩ := this
      obtain ⟨b, hb⟩ := h.used u hu a' ha'
      exact ⟨b, mem_drop_ops.2 ⟨hb, huv⟩⟩
  · intro b u hu ho
    obtain ⟨hu, huv⟩ := mem_drop_ops.1 hu
    simp only [drop_op] at ho
    rw [drop_node hp hu huv, length_replaceArg]
    exact h.unary b u hu ho
  · intro b u hu ho
    obtain ⟨hu, huv⟩ := mem_drop_ops.1 hu
    rw [drop_op] at ho
    rw [drop_node hp hu huv, length_replaceArg]
    exact h.mul b u hu ho
  · intro b u hu i ho hi
    obtain ⟨hu, huv⟩ := mem_drop_ops.1 hu
    rw [drop_op] at ho
    obtain ⟨a, f, h1, h2⟩ := h.get b u hu i ho hi
    have hav : a ≠ v := hnc a (by rw [h2]; simp)
    refine ⟨a, f, ?_, by rw [drop_op]; exact h2⟩
    rw [hone b u a hu huv (by rw [ho]; rfl) h1, sub_of_ne hav]
  · intro b u hu a ha hs
    obtain ⟨hu, huv⟩ := mem_drop_ops.1 hu
    rw [drop_op] at hs
    simp only [drop_op]
    obtain ⟨a', ha', rfl⟩ := hopsub b u hu huv a ha
    by_cases hav : a' = v
    · subst hav
      rw [sub_self] at hs ⊢
      rcases h.args b0 a' hv x (by rw [hc]; exact List.mem_singleton.2 rfl) hs with h1 | ⟨h1, _⟩
      · exact .inl h1
      · rw [hc] at h1; cases h1
    · rw [sub_of_ne hav] at hs ⊢
      exact h.args b u hu a' ha' hs
  · have hphi : ∀ R : Reg, HasPhi t R → HasPhi (t.drop v x) R := by
      intro R
      induction R with
      | last b => exact fun _ => trivial
      | ite b l r rest ihl ihr ihrest =>
        rintro ⟨⟨u, hu, ho⟩, h1, h2, h3⟩
        exact ⟨⟨u, mem_drop_ops.2 ⟨hu, hnc u (by rw [ho]; simp)⟩, by rw [drop_op]; exact ho⟩, ihl h1, ihr h2, ihrest h3⟩
      | opt b k l rest ihl ihrest =>
        rintro ⟨h1, h2⟩
        exact ⟨ihl h1, ihrest h2⟩
    exact hphi W h.phis
  · intro b u hu ho
    rw [drop_op] at ho
    exact h.jumps b u (mem_drop_ops.1 hu).1 ho
  · intro b k hb he
    obtain ⟨u, hu⟩ := List.exists_mem_of_ne_nil _ (h.full b k hb)
    have hmem : ∀ w ∈ t.ops b, w ≠ v → False := fun w hw hwv => by
      have : w ∈ (t.drop v x).ops b := mem_drop_ops.2 ⟨hw, hwv⟩
      rw [he] at this
      cases this
    by_cases huv : u = v
    · subst huv
      exact hmem x (hxb b hu) hx
    · exact hmem u hu huv
  · intro b u hu key ho hr
    obtain ⟨hu, huv⟩ := mem_drop_ops.1 hu
    rw [drop_op] at ho
    obtain ⟨h1, h2⟩ := h.ret b u hu key ho hr
    exact ⟨h1, getLast?_filter_ne h2 huv⟩
  · intro b u hu key ho hr hk a ha
    obtain ⟨hu, huv⟩ := mem_drop_ops.1 hu
    rw [drop_op] at ho
    obtain ⟨a', ha', rfl⟩ := hopsub b u hu huv a ha
    obtain ⟨ty, h1, h2⟩ := h.matrix b u hu key ho hr hk a' ha'
    rw [sub_of_ne (hnc a' (by rw [h1]; simp))]
    exact ⟨ty, by rw [drop_op]; exact h1, h2⟩
  · intro b u hu key ho hr hk a ha
    obtain ⟨hu, huv⟩ := mem_drop_ops.1 hu
    rw [drop_op] at ho
    obtain ⟨a', ha', rfl⟩ := hopsub b u hu huv a ha
    obtain ⟨⟨ty, h1, h2⟩, h3⟩ := h.struct b u hu key ho hr hk a' ha'
    rw [sub_of_ne (hnc a' (by rw [h1]; simp))]
    refine ⟨⟨ty, by rw [drop_op]; exact h1, h2⟩, fun d w hw haw => ?_⟩
    obtain ⟨hw, hwv⟩ := mem_drop_ops.1 hw
    obtain ⟨a2, ha2, e⟩ := hopsub d w hw hwv a' haw
    by_cases hav : a2 = v
    · rw [hav, sub_self] at e
      have := h3 b0 v hv (by rw [hc, e]; exact List.mem_singleton.2 rfl)
      exact absurd this.symm huv
    · rw [sub_of_ne hav] at e
      exact h3 d w hw (e ▸ ha2)
  · intro b u hu key ho
    obtain ⟨hu, huv⟩ := mem_drop_ops.1 hu
    rw [drop_op] at ho
    obtain ⟨h1, h2, h3, h4⟩ := h.saves b u hu key ho
    refine ⟨h1, h2, ?_, h4⟩
    rw [← h3, drop_node hp hu huv, replaceArg_not_comm (by rw [ho]; rfl), List.map_map]
    exact List.map_congr_left fun a _ => hvsub a
  · intro u hu key ho
    obtain ⟨b, hb, h1⟩ := h.all u hu key ho
    exact ⟨b, mem_drop_ops.2 ⟨hb, hnc u (by rw [h1]; simp)⟩, by rw [drop_op]; exact h1⟩

end

end Wf.Gen
