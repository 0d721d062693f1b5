import Verif.Gen.PassLemmas2

/-! # Binarisation ends

A round either shortens an operand list of more than two operands, or moves the active set one level towards the outputs. -/

namespace Wf.Gen

variable {V : Type} [Arith V]

/-- Operands beyond the second. -/
def excess (g : Graph) : Nat := (g.ops.map fun v => (g.node v).args.length - 2).sum

/-- `h` is larger on operands: a bound on the distance to the outputs. -/
def Height (g : Graph) (h : Nat → Nat) : Prop := ∀ v ∈ g.ops, ∀ a ∈ (g.node v).args, h v < h a

theorem sum_map_update (l : List Nat) (hnd : l.Nodup) (c : Nat) (f f' : Nat → Nat) (heq : ∀ v, v ≠ c → f' v = f v) :
    (l.map f').sum + (if c ∈ l then f c else 0) = (l.map f).sum + (if c ∈ l then f' c else 0) := by
  induction l with
  | nil => simp
  | cons a l ih =>
    rw [List.nodup_cons] at hnd
    have ih := ih hnd.2
    simp only [List.map_cons, List.sum_cons]
    by_cases hac : a = c
    · subst hac
      rw [if_neg hnd.1, if_neg hnd.1] at ih
      rw [if_pos List.mem_cons_self, if_pos List.mem_cons_self]
      omega
    · have h1 : (c ∈ a :: l) = (c ∈ l) := by simp [Ne.symm hac]
      simp only [h1]
      rw [heq a hac]
      omega

theorem length_replacePair (a b new : Nat) (n : Node) : (replacePair a b new n).1.args.length + (replacePair a b new n).2 = n.args.length := by
  obtain ⟨rest, he, hp⟩ := replacePair_perm a b new n
  have hl := hp.length_eq
  rw [he, length_mkNode]
  simp only [List.length_append, List.length_replicate] at hl ⊢
  omega

theorem replacePair_zero (a b new : Nat) (n : Node) (h : (replacePair a b new n).2 = 0) : ∀ x, x ∈ (replacePair a b new n).1.args ↔ x ∈ n.args := by
  obtain ⟨rest, he, hp⟩ := replacePair_perm a b new n
  rw [h] at he hp
  intro x
  rw [he, mem_mkNode, hp.mem_iff]
  simp

/-- What a treated consumer does to the measure. -/
theorem pairConsumer_measure {a b new : Nat} {g g' : Graph} {c : Nat} {h : Nat → Nat} (hnd : g.ops.Nodup) (hc : c ∈ g.ops) (hcn : c ≠ new)
    (he : pairConsumer a b new g c = .ok g') : g'.ops = g.ops ∧ excess g' ≤ excess g ∧
      (excess g' < excess g ∨ (Height g h → h c ≤ h new → Height g' h ∧ ∀ d ∈ activated a b new g c, h d < h c)) := by
  unfold pairConsumer at he
  by_cases h2 : (g.node c).args.length > 2
  · rw [if_pos h2] at he
    cases he
    have hl := length_replacePair a b new (g.node c)
    have hs := sum_map_update g.ops hnd c (fun v => (g.node v).args.length - 2)
      (fun v => ((g.setNode c (replacePair a b new (g.node c)).1).node v).args.length - 2) (by
        intro v hv
        show (if v = c then (replacePair a b new (g.node c)).1 else g.node v).args.length - 2 = _
        rw [if_neg hv])
    rw [if_pos hc, if_pos hc] at hs
    have e : ((g.setNode c (replacePair a b new (g.node c)).1).node c).args.length = (replacePair a b new (g.node c)).1.args.length := by
      show (if c = c then (replacePair a b new (g.node c)).1 else g.node c).args.length = _
      rw [if_pos rfl]
    have hex : excess (g.setNode c (replacePair a b new (g.node c)).1) + ((g.node c).args.length - 2) =
        excess g + ((replacePair a b new (g.node c)).1.args.length - 2) := by
      simp only [e] at hs
      exact hs
    refine ⟨rfl, by omega, ?_⟩
    by_cases ht : (replacePair a b new (g.node c)).2 = 0
    · right
      intro hh _
      refine ⟨?_, ?_⟩
      · intro v hv x hx
        have hnd : (g.setNode c (replacePair a b new (g.node c)).1).node v = if v = c then (replacePair a b new (g.node c)).1 else g.node v := rfl
        rw [hnd] at hx
        by_cases hvc : v = c
        · rw [if_pos hvc, replacePair_zero a b new _ ht] at hx
          rw [hvc]; exact hh c hc x hx
        · rw [if_neg hvc] at hx; exact hh v hv x hx
      · unfold activated
        rw [if_pos h2, if_neg (by omega)]
        simp
    · left; omega
  · rw [if_neg h2] at he
    by_cases h2' : (g.node c).args.length = 2
    · rw [if_pos h2'] at he
      by_cases hcond : (!g.isUnused c && (g.node c).args == [a, b]) = true
      · rw [if_pos hcond] at he
        unfold Graph.replaceWith at he
        rw [if_neg hcn] at he
        cases he
        have hexc : excess { g with node := fun i => replaceArg c new (g.node i) } = excess g := by
          unfold excess
          simp only [length_replaceArg]
        refine ⟨rfl, hexc.le, Or.inr fun hh hle => ⟨?_, ?_⟩⟩
        · intro v hv x hx
          rcases mem_replaceArg hx with ⟨rfl, hcv⟩ | ⟨hx, _⟩ | ⟨hx, _⟩
          · exact lt_of_lt_of_le (hh v hv c hcv) hle
          · exact hh v hv x hx
          · exact hh v hv x hx
        · intro d hd
          unfold activated at hd
          rw [if_neg h2, if_pos hcond] at hd
          unfold Graph.consumersOf at hd
          rw [List.mem_filter] at hd
          exact hh d hd.1 c (by simpa using hd.2)
      · rw [if_neg hcond] at he
        cases he
        refine ⟨rfl, le_refl _, Or.inr fun hh _ => ⟨hh, ?_⟩⟩
        unfold activated
        rw [if_neg h2, if_neg hcond]
        simp
    · rw [if_neg h2'] at he
      cases he

theorem pairConsumers_measure {a b new : Nat} (E0 m : Nat) (h : Nat → Nat) (cs : List Nat) : ∀ (g : Graph) (act : List Nat) (g' : Graph) (act' : List Nat), g.ops.Nodup →
    (∀ c ∈ cs, c ∈ g.ops ∧ c ≠ new ∧ h c ≤ h new ∧ h c ≤ m) → excess g ≤ E0 → (excess g < E0 ∨ (Height g h ∧ ∀ d ∈ act, h d < m)) →
    pairConsumers a b new g act cs = .ok (g', act') →
    g'.ops = g.ops ∧ excess g' ≤ E0 ∧ (excess g' < E0 ∨ (Height g' h ∧ ∀ d ∈ act', h d < m)) := by
  induction cs with
  | nil =>
    intro g act g' act' _ _ h1 h2 he
    rw [pairConsumers] at he
    cases he
    exact ⟨rfl, h1, h2⟩
  | cons c cs ih =>
    intro g act g' act' hnd hcs h1 h2 he
    rw [pairConsumers] at he
    cases hp : pairConsumer a b new g c with
    | error e => rw [hp] at he; cases he
    | ok g1 =>
      rw [hp] at he
      simp only at he
      obtain ⟨c1, c2, c3, c4⟩ := hcs c List.mem_cons_self
      obtain ⟨o1, m1, m2⟩ := pairConsumer_measure (h := h) hnd c1 c2 hp
      obtain ⟨o2, m3, m4⟩ := ih g1 _ g' act' (by rw [o1]; exact hnd) (fun d hd => by rw [o1]; exact hcs d (List.mem_cons_of_mem _ hd)) (m1.trans h1) (by
        rcases h2 with h2 | ⟨h2, h2'⟩
        · exact Or.inl (lt_of_le_of_lt m1 h2)
        · rcases m2 with m2 | m2
          · exact Or.inl (lt_of_lt_of_le m2 h1)
          · obtain ⟨m5, m6⟩ := m2 h2 c3
            refine Or.inr ⟨m5, fun d hd => ?_⟩
            rcases List.mem_append.mp hd with hd | hd
            · exact h2' d hd
            · exact lt_of_lt_of_le (m6 d hd) c4) he
      exact ⟨o2.trans o1, m3, m4⟩

theorem activated_sub {a b new : Nat} {g : Graph} {c : Nat} (hc : c ∈ g.ops) : ∀ d ∈ activated a b new g c, d ∈ g.ops := by
  intro d hd
  unfold activated at hd
  split at hd
  · split at hd
    · rw [List.mem_singleton] at hd; rw [hd]; exact hc
    · simp at hd
  · split at hd
    · unfold Graph.consumersOf at hd
      exact (List.mem_filter.mp hd).1
    · simp at hd

theorem pairConsumers_excess {a b new : Nat} (cs : List Nat) : ∀ (g : Graph) (act : List Nat) (g' : Graph) (act' : List Nat), g.ops.Nodup →
    (∀ c ∈ cs, c ∈ g.ops ∧ c ≠ new) → (∀ d ∈ act, d ∈ g.ops) → pairConsumers a b new g act cs = .ok (g', act') →
    g'.ops = g.ops ∧ excess g' ≤ excess g ∧ ∀ d ∈ act', d ∈ g'.ops := by
  induction cs with
  | nil =>
    intro g act g' act' _ _ h1 he
    rw [pairConsumers] at he
    cases he
    exact ⟨rfl, le_refl _, h1⟩
  | cons c cs ih =>
    intro g act g' act' hnd hcs h1 he
    rw [pairConsumers] at he
    cases hp : pairConsumer a b new g c with
    | error e => rw [hp] at he; cases he
    | ok g1 =>
      rw [hp] at he
      simp only at he
      obtain ⟨c1, c2⟩ := hcs c List.mem_cons_self
      obtain ⟨o1, m1, _⟩ := pairConsumer_measure (h := fun _ => 0) hnd c1 c2 hp
      obtain ⟨o2, m3, m4⟩ := ih g1 _ g' act' (by rw [o1]; exact hnd) (fun d hd => by rw [o1]; exact hcs d (List.mem_cons_of_mem _ hd)) (by
        intro d hd
        rw [o1]
        rcases List.mem_append.mp hd with hd | hd
        · exact h1 d hd
        · exact activated_sub c1 d hd) he
      exact ⟨o2.trans o1, m3.trans m1, m4⟩

theorem excess_push (g : Graph) (hlt : ∀ v ∈ g.ops, v < g.next) (op : Op) (a b : Nat) : excess (g.push op [a, b]).1 = excess g := by
  unfold excess
  show ((g.ops ++ [g.next]).map _).sum = _
  rw [List.map_append, List.sum_append]
  have e1 : (g.push op [a, b]).1.node g.next = mkNode op [a, b] := if_pos rfl
  have : ([g.next].map fun v => ((g.push op [a, b]).1.node v).args.length - 2).sum = 0 := by
    simp only [List.map_cons, List.map_nil, e1, length_mkNode, List.length_cons, List.length_nil, List.sum_cons, List.sum_nil, Nat.reduceAdd, Nat.reduceSub]
  rw [this, Nat.add_zero]
  congr 1
  apply List.map_congr_left
  intro v hv
  have e2 : (g.push op [a, b]).1.node v = g.node v := if_neg (by have := hlt v hv; omega)
  rw [e2]

/-- One whole round. `g0` is the graph at the start of the round. -/
theorem pairSteps_measure {I : Interp V} {op : Op} (hop : op.commutative = true) (g0 : Graph) (act0 : List Nat) (E0 m : Nat) (h0 : Nat → Nat)
    (hh0 : Height g0 h0) (hm : ∀ c ∈ act0, h0 c ≤ m) (ss : List PairStep) :
    ∀ (g : Graph) (act : List Nat) (r : Nat → ℚ) (ρ : Nat → V) (g' : Graph) (act' : List Nat), Good I g r ρ → (∀ v ∈ g0.ops, v ∈ g.ops) → (∀ d ∈ act, d ∈ g.ops) →
    (∀ v ∈ g0.ops, (g.node v).op = (g0.node v).op) → WF g0 →
    (∀ s ∈ ss, s.consumers ≠ [] ∧ ∀ c ∈ s.consumers, c ∈ g0.ops ∧ (g0.node c).op = op ∧ c ∈ act0 ∧ s.a ∈ (g0.node c).args ∧ s.b ∈ (g0.node c).args) →
    excess g ≤ E0 → (excess g < E0 ∨ ∃ h, Height g h ∧ (∀ v ∈ g0.ops, h v = h0 v) ∧ ∀ d ∈ act, h d < m) →
    pairSteps op g act ss = .ok (g', act') →
    excess g' ≤ E0 ∧ (excess g' < E0 ∨ ∃ h, Height g' h ∧ ∀ d ∈ act', h d < m) := by
  induction ss with
  | nil =>
    intro g act r ρ g' act' _ _ _ _ _ _ h1 h2 he
    rw [pairSteps] at he
    cases he
    refine ⟨h1, ?_⟩
    rcases h2 with h2 | ⟨h, a, _, c⟩
    · exact Or.inl h2
    · exact Or.inr ⟨h, a, c⟩
  | cons s ss ih =>
    intro g act r ρ g' act' hg hsub hactsub hops hwf hss h1 h2 he
    obtain ⟨hne, hcons⟩ := hss s List.mem_cons_self
    obtain ⟨c0, hc0⟩ := List.exists_mem_of_ne_nil _ hne
    have ha0 : s.a ∈ g0.ops := hwf.closed c0 (hcons c0 hc0).1 _ (hcons c0 hc0).2.2.2.1
    have hb0 : s.b ∈ g0.ops := hwf.closed c0 (hcons c0 hc0).1 _ (hcons c0 hc0).2.2.2.2
    have hvalid : s.Valid op g := ⟨hsub _ ha0, hsub _ hb0, fun c hc => ⟨hsub c (hcons c hc).1, (hops c (hcons c hc).1).trans (hcons c hc).2.1⟩⟩
    obtain ⟨g1, act1, r1, ρ1, e1, hr1⟩ := pairStep_reach hop hg hvalid act
    rw [pairSteps, e1] at he
    simp only at he
    have hlt : ∀ v ∈ g.ops, v ≠ g.next := fun v hv => by have := hg.wf.lt v hv; omega
    -- the largest height among the consumers
    obtain ⟨M, hM1, hM2⟩ : ∃ M, (∀ c ∈ s.consumers, h0 c ≤ M) ∧ ∃ c ∈ s.consumers, h0 c = M := by
      clear hvalid e1 he hcons
      revert hne
      generalize s.consumers = l
      intro hne
      induction l with
      | nil => exact absurd rfl hne
      | cons x l ihl =>
        by_cases hl : l = []
        · subst hl; exact ⟨h0 x, by simp, x, by simp, rfl⟩
        · obtain ⟨M, h1, y, hy, h2⟩ := ihl hl
          by_cases hx : h0 x ≤ M
          · exact ⟨M, fun c hc => by
              rcases List.mem_cons.mp hc with rfl | hc
              · exact hx
              · exact h1 c hc, y, List.mem_cons_of_mem _ hy, h2⟩
          · exact ⟨h0 x, fun c hc => by
              rcases List.mem_cons.mp hc with rfl | hc
              · exact le_refl _
              · exact (h1 c hc).trans (by omega), x, List.mem_cons_self, rfl⟩
    obtain ⟨cM, hcM, hcM'⟩ := hM2
    have hMa : M < h0 s.a := by rw [← hcM']; exact hh0 cM (hcons cM hcM).1 _ (hcons cM hcM).2.2.2.1
    have hMb : M < h0 s.b := by rw [← hcM']; exact hh0 cM (hcons cM hcM).1 _ (hcons cM hcM).2.2.2.2
    have hexc := excess_push g hg.wf.lt op s.a s.b
    have hnd1 : (g.push op [s.a, s.b]).1.ops.Nodup := by
      show (g.ops ++ [g.next]).Nodup
      rw [List.nodup_append]
      exact ⟨hg.wf.nodup, by simp, fun x hx y hy => by rw [List.mem_singleton] at hy; subst hy; exact hlt x hx⟩
    -- heights with the new value
    have hext : ∀ h : Nat → Nat, Height g h → (∀ v ∈ g0.ops, h v = h0 v) →
        Height (g.push op [s.a, s.b]).1 (fun i => if i = g.next then M else h i) := by
      intro h hh heq v hv x hx
      rcases List.mem_append.mp hv with hv | hv
      · have e2 : (g.push op [s.a, s.b]).1.node v = g.node v := if_neg (hlt v hv)
        rw [e2] at hx
        simp only [if_neg (hlt v hv), if_neg (hlt x (hg.wf.closed v hv x hx))]
        exact hh v hv x hx
      · rw [List.mem_singleton] at hv
        subst hv
        have e2 : (g.push op [s.a, s.b]).1.node g.next = mkNode op [s.a, s.b] := if_pos rfl
        rw [e2, mem_mkNode] at hx
        simp only [List.mem_cons, List.not_mem_nil, or_false] at hx
        simp only [if_true]
        rcases hx with rfl | rfl
        · rw [if_neg (hlt _ (hsub _ ha0)), heq _ ha0]; exact hMa
        · rw [if_neg (hlt _ (hsub _ hb0)), heq _ hb0]; exact hMb
    obtain ⟨hexops, hexle, hexact⟩ := pairConsumers_excess (a := s.a) (b := s.b) (new := g.next) s.consumers _ act g1 act1 hnd1
      (fun c hc => ⟨List.mem_append_left _ (hsub c (hcons c hc).1), hlt c (hsub c (hcons c hc).1)⟩) (fun d hd => List.mem_append_left _ (hactsub d hd)) e1
    rw [hexc] at hexle
    -- one step
    have key : excess g1 ≤ E0 ∧ (excess g1 < E0 ∨ ∃ h, Height g1 h ∧ (∀ v ∈ g0.ops, h v = h0 v) ∧ ∀ d ∈ act1, h d < m) := by
      rcases h2 with h2 | ⟨h, hh, heq, hact⟩
      · exact ⟨by omega, Or.inl (by omega)⟩
      · have heq' : ∀ v ∈ g0.ops, (if v = g.next then M else h v) = h0 v := fun v hv => by rw [if_neg (hlt v (hsub v hv))]; exact heq v hv
        obtain ⟨k1, k2, k3⟩ := pairConsumers_measure (a := s.a) (b := s.b) (new := g.next) E0 m (fun i => if i = g.next then M else h i) s.consumers _ act g1 act1 hnd1
          (fun c hc => by
            have hc' := hcons c hc
            refine ⟨List.mem_append_left _ (hsub c hc'.1), hlt c (hsub c hc'.1), ?_, ?_⟩
            · simp only [if_true]
              rw [heq' c hc'.1]; exact hM1 c hc
            · rw [heq' c hc'.1]; exact hm c hc'.2.2.1) (by rw [hexc]; exact h1)
          (by
            rw [hexc]
            rcases Nat.lt_or_ge (excess g) E0 with hlt' | _
            · exact Or.inl hlt'
            · refine Or.inr ⟨hext h hh heq, fun d hd => ?_⟩
              rw [if_neg (hlt d (hactsub d hd))]; exact hact d hd) e1
        refine ⟨k2, ?_⟩
        rcases k3 with k3 | ⟨k3, k4⟩
        · exact Or.inl k3
        · exact Or.inr ⟨_, k3, heq', k4⟩
    exact ih g1 act1 r1 ρ1 g' act' hr1.good (fun v hv => hr1.sub v (hsub v hv)) hexact (fun v hv => (hr1.op v (hsub v hv)).trans (hops v hv)) hwf
      (fun t ht => hss t (List.mem_cons_of_mem _ ht)) key.1 key.2 he

/-- A height for every block without cycles. -/
theorem exists_height {g : Graph} {r : Nat → ℚ} (hr : Ranked g r) (hc : ∀ v ∈ g.ops, ∀ a ∈ (g.node v).args, a ∈ g.ops) : ∃ h, Height g h := by
  refine ⟨fun v => (g.ops.filter fun u => r v < r u).length, ?_⟩
  intro v hv a ha
  have hra := hr v hv a ha
  have hsub : (g.ops.filter fun u => r v < r u).Sublist (g.ops.filter fun u => r a < r u) := by
    apply List.monotone_filter_right
    intro u hu
    simp only [decide_eq_true_eq] at hu ⊢
    exact hra.trans hu
  rcases Nat.lt_or_ge (g.ops.filter fun u => r v < r u).length (g.ops.filter fun u => r a < r u).length with h | h
  · exact h
  · exfalso
    have heq := hsub.eq_of_length_le h
    have hm : v ∈ g.ops.filter fun u => r a < r u := by rw [List.mem_filter]; exact ⟨hv, by simpa using hra⟩
    rw [← heq, List.mem_filter] at hm
    have := hm.2
    simp at this

theorem exists_bound (h : Nat → Nat) (l : List Nat) : ∃ m, ∀ c ∈ l, h c ≤ m := by
  induction l with
  | nil => exact ⟨0, by simp⟩
  | cons a l ih =>
    obtain ⟨m, hm⟩ := ih
    refine ⟨max m (h a), fun c hc => ?_⟩
    rcases List.mem_cons.mp hc with rfl | hc
    · exact le_max_right _ _
    · exact (hm c hc).trans (le_max_left _ _)

/-- The rounds made by the program come to an end. -/
theorem binarizeLoop_ends {I : Interp V} {op : Op} (hop : op.commutative = true) : ∀ (E : Nat) (g : Graph) (act : List Nat) (r : Nat → ℚ) (ρ : Nat → V),
    Good I g r ρ → excess g ≤ E → ∃ N, ∀ fuel, N ≤ fuel → ∃ g' r' ρ', binarizeLoop op (identify op) fuel g act = .ok g' ∧ Reach I g r ρ g' r' ρ' := by
  intro E
  induction E using Nat.strong_induction_on with
  | _ E ihE =>
    intro g act r ρ hg hE
    obtain ⟨h0, hh0⟩ := exists_height hg.ranked hg.wf.closed
    obtain ⟨m, hm⟩ := exists_bound h0 act
    -- inner induction on the height of the active set
    have inner : ∀ (m : Nat) (g : Graph) (act : List Nat) (r : Nat → ℚ) (ρ : Nat → V) (h : Nat → Nat), Good I g r ρ → excess g ≤ E → Height g h →
        (∀ c ∈ act, h c ≤ m) → ∃ N, ∀ fuel, N ≤ fuel → ∃ g' r' ρ', binarizeLoop op (identify op) fuel g act = .ok g' ∧ Reach I g r ρ g' r' ρ' := by
      intro m
      induction m with
      | zero =>
        intro g act r ρ h hg hE hh hm
        match act with
        | [] => exact ⟨0, fun fuel _ => ⟨g, r, ρ, by cases fuel <;> rfl, hg.refl⟩⟩
        | a :: as =>
          obtain ⟨g1, act1, r1, ρ1, e1, hr1⟩ := pairSteps_reach hop (identify op g (a :: as)) g [] r ρ hg (identify_valid op g _ hg.wf)
          obtain ⟨k1, k2⟩ := pairSteps_measure hop g (a :: as) E 0 h hh hm (identify op g (a :: as)) g [] r ρ g1 act1 hg (fun _ h => h) (by simp) (fun _ _ => rfl) hg.wf
            (identify_spec op g (a :: as)) hE (Or.inr ⟨h, hh, fun _ _ => rfl, by simp⟩) e1
          have hnext : ∃ N, ∀ fuel, N ≤ fuel → ∃ g' r' ρ', binarizeLoop op (identify op) fuel g1 act1 = .ok g' ∧ Reach I g1 r1 ρ1 g' r' ρ' := by
            rcases k2 with k2 | ⟨h', _, k3⟩
            · exact ihE _ k2 g1 act1 r1 ρ1 hr1.good (le_refl _)
            · have : act1 = [] := List.eq_nil_iff_forall_not_mem.mpr fun d hd => absurd (k3 d hd) (Nat.not_lt_zero _)
              subst this
              exact ⟨0, fun fuel _ => ⟨g1, r1, ρ1, by cases fuel <;> rfl, hr1.good.refl⟩⟩
          obtain ⟨N, hN⟩ := hnext
          refine ⟨N + 1, fun fuel hf => ?_⟩
          obtain ⟨fuel, rfl⟩ : ∃ f, fuel = f + 1 := ⟨fuel - 1, by omega⟩
          obtain ⟨g', r', ρ', e, hr⟩ := hN fuel (by omega)
          exact ⟨g', r', ρ', by rw [binarizeLoop, e1]; exact e, hr1.trans hr⟩
      | succ m ihm =>
        intro g act r ρ h hg hE hh hm
        match act with
        | [] => exact ⟨0, fun fuel _ => ⟨g, r, ρ, by cases fuel <;> rfl, hg.refl⟩⟩
        | a :: as =>
          obtain ⟨g1, act1, r1, ρ1, e1, hr1⟩ := pairSteps_reach hop (identify op g (a :: as)) g [] r ρ hg (identify_valid op g _ hg.wf)
          obtain ⟨k1, k2⟩ := pairSteps_measure hop g (a :: as) E (m + 1) h hh hm (identify op g (a :: as)) g [] r ρ g1 act1 hg (fun _ h => h) (by simp) (fun _ _ => rfl) hg.wf
            (identify_spec op g (a :: as)) hE (Or.inr ⟨h, hh, fun _ _ => rfl, by simp⟩) e1
          have hnext : ∃ N, ∀ fuel, N ≤ fuel → ∃ g' r' ρ', binarizeLoop op (identify op) fuel g1 act1 = .ok g' ∧ Reach I g1 r1 ρ1 g' r' ρ' := by
            rcases k2 with k2 | ⟨h', hh', k3⟩
            · exact ihE _ k2 g1 act1 r1 ρ1 hr1.good (le_refl _)
            · exact ihm g1 act1 r1 ρ1 h' hr1.good k1 hh' fun c hc => Nat.lt_succ_iff.mp (k3 c hc)
          obtain ⟨N, hN⟩ := hnext
          refine ⟨N + 1, fun fuel hf => ?_⟩
          obtain ⟨fuel, rfl⟩ : ∃ f, fuel = f + 1 := ⟨fuel - 1, by omega⟩
          obtain ⟨g', r', ρ', e, hr⟩ := hN fuel (by omega)
          exact ⟨g', r', ρ', by rw [binarizeLoop, e1]; exact e, hr1.trans hr⟩
    exact inner m g act r ρ h0 hg hE hh0 hm

theorem binarizeLoop_mono {op : Op} {choose : Graph → List Nat → List PairStep} (fuel : Nat) : ∀ (g : Graph) (act : List Nat) (g' : Graph),
    binarizeLoop op choose fuel g act = .ok g' → ∀ k, binarizeLoop op choose (fuel + k) g act = .ok g' := by
  induction fuel with
  | zero =>
    intro g act g' he k
    match act with
    | [] => rw [binarizeLoop] at he ⊢; exact he
    | _ :: _ => rw [binarizeLoop] at he; cases he
  | succ fuel ih =>
    intro g act g' he k
    match act with
    | [] => rw [binarizeLoop] at he ⊢; exact he
    | a :: as =>
      have e : fuel + 1 + k = (fuel + k) + 1 := by omega
      rw [e]
      rw [binarizeLoop] at he ⊢
      cases hp : pairSteps op g [] (choose g (a :: as)) with
      | error e => rw [hp] at he; cases he
      | ok x =>
        rw [hp] at he
        exact ih _ _ _ he k

end Wf.Gen
