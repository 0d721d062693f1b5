import Verif.Gen.PassLemmas
import Mathlib.Tactic.NormNum

/-! # Passes that create operations -/

namespace Wf.Gen

variable {V : Type} [Arith V]

/-- `g'` was reached from `g` by value-preserving edits that keep all existing values. -/
structure Reach (I : Interp V) (g : Graph) (r : Nat → ℚ) (ρ : Nat → V) (g' : Graph) (r' : Nat → ℚ) (ρ' : Nat → V) : Prop where
  good : Good I g' r' ρ'
  sub : ∀ v ∈ g.ops, v ∈ g'.ops
  op : ∀ v ∈ g.ops, (g'.node v).op = (g.node v).op
  rank : ∀ v ∈ g.ops, r' v = r v
  val : ∀ v ∈ g.ops, ρ' v = ρ v
  outs : ∀ k x, Outs g' ρ' k x ↔ Outs g ρ k x

theorem Good.refl {I : Interp V} {g : Graph} {r : Nat → ℚ} {ρ : Nat → V} (h : Good I g r ρ) : Reach I g r ρ g r ρ :=
  ⟨h, fun _ h => h, fun _ _ => rfl, fun _ _ => rfl, fun _ _ => rfl, fun _ _ => Iff.rfl⟩

theorem Reach.trans {I : Interp V} {g g' g'' : Graph} {r r' r'' : Nat → ℚ} {ρ ρ' ρ'' : Nat → V} (h1 : Reach I g r ρ g' r' ρ')
    (h2 : Reach I g' r' ρ' g'' r'' ρ'') : Reach I g r ρ g'' r'' ρ'' :=
  ⟨h2.good, fun v hv => h2.sub v (h1.sub v hv), fun v hv => (h2.op v (h1.sub v hv)).trans (h1.op v hv),
    fun v hv => (h2.rank v (h1.sub v hv)).trans (h1.rank v hv), fun v hv => (h2.val v (h1.sub v hv)).trans (h1.val v hv),
    fun k x => (h2.outs k x).trans (h1.outs k x)⟩

theorem Good.push' {I : Interp V} {g : Graph} {r : Nat → ℚ} {ρ : Nat → V} (h : Good I g r ρ) (op : Op) (args : List Nat) (q : ℚ)
    (hargs : ∀ a ∈ args, a ∈ g.ops) (hq : ∀ a ∈ args, r a < q) (hn : NodeWF (mkNode op args)) (hs : ∀ k, op ≠ .save k) :
    ∃ r' ρ', Reach I g r ρ (g.push op args).1 r' ρ' ∧ r' g.next = q ∧ ρ' g.next = I.f op (args.map ρ) ∧ g.next ∈ (g.push op args).1.ops := by
  obtain ⟨h1, h2⟩ := h.push op args q hargs hq hn hs
  have hne : ∀ v ∈ g.ops, v ≠ g.next := fun v hv => by have := h.wf.lt v hv; omega
  refine ⟨_, _, ⟨h1, fun v hv => List.mem_append_left _ hv, ?_, ?_, ?_, h2⟩, if_pos rfl, if_pos rfl, List.mem_append_right _ (by simp)⟩
  · intro v hv
    have : (g.push op args).1.node v = g.node v := if_neg (hne v hv)
    rw [this]
  · intro v hv; exact if_neg (hne v hv)
  · intro v hv; exact if_neg (hne v hv)

theorem Good.replaceWith' {I : Interp V} {g : Graph} {r : Nat → ℚ} {ρ : Nat → V} (h : Good I g r ρ) {v w : Nat} (hvw : v ≠ w) (hw : w ∈ g.ops)
    (he : ρ v = ρ w) (hr : r w ≤ r v) : ∃ g', g.replaceWith v w = .ok g' ∧ Reach I g r ρ g' r ρ ∧ ∀ u, g'.node u = replaceArg v w (g.node u) := by
  obtain ⟨g', e, h1, h2, _, h4, h5⟩ := h.replaceWith hvw hw he hr
  exact ⟨g', e, ⟨h1, fun u hu => h2 ▸ hu, fun u _ => by rw [h4, op_replaceArg], fun _ _ => rfl, fun _ _ => rfl, h5⟩, h4⟩

theorem forOps_reach {I : Interp V} (f : Graph → Nat → Res Graph)
    (hf : ∀ (g : Graph) (r : Nat → ℚ) (ρ : Nat → V) (v : Nat), Good I g r ρ → v ∈ g.ops → ∃ g' r' ρ', f g v = .ok g' ∧ Reach I g r ρ g' r' ρ')
    (vs : List Nat) : ∀ (g : Graph) (r : Nat → ℚ) (ρ : Nat → V), Good I g r ρ → (∀ v ∈ vs, v ∈ g.ops) →
      ∃ g' r' ρ', forOps f g vs = .ok g' ∧ Reach I g r ρ g' r' ρ' := by
  induction vs with
  | nil => intro g r ρ h _; exact ⟨g, r, ρ, rfl, h.refl⟩
  | cons v vs ih =>
    intro g r ρ h hvs
    obtain ⟨g1, r1, ρ1, e1, h1⟩ := hf g r ρ v h (hvs v List.mem_cons_self)
    obtain ⟨g2, r2, ρ2, e2, h2⟩ := ih g1 r1 ρ1 h1.good fun u hu => h1.sub u (hvs u (List.mem_cons_of_mem _ hu))
    refine ⟨g2, r2, ρ2, ?_, h1.trans h2⟩
    rw [forOps, e1]
    exact e2

/-- Room below `c` above all of `l`. -/
theorem exists_rank (r : Nat → ℚ) (c : ℚ) (l : List Nat) (h : ∀ a ∈ l, r a < c) : ∃ q < c, ∀ a ∈ l, r a < q := by
  induction l with
  | nil => exact ⟨c - 1, by linarith, by simp⟩
  | cons a l ih =>
    obtain ⟨q, hq, hl⟩ := ih fun b hb => h b (List.mem_cons_of_mem _ hb)
    have ha := h a List.mem_cons_self
    refine ⟨max q ((r a + c) / 2), max_lt hq (by linarith), ?_⟩
    intro b hb
    rcases List.mem_cons.mp hb with rfl | hb
    · exact lt_of_lt_of_le (by linarith) (le_max_right _ _)
    · exact lt_of_lt_of_le (hl b hb) (le_max_left _ _)

/-- Room between two lists. -/
theorem exists_rank_between (r : Nat → ℚ) (lo hi : List Nat) (h : ∀ a ∈ lo, ∀ b ∈ hi, r a < r b) :
    ∃ q, (∀ a ∈ lo, r a < q) ∧ ∀ b ∈ hi, q < r b := by
  induction hi with
  | nil =>
    obtain ⟨c, hc⟩ : ∃ c : ℚ, ∀ a ∈ lo, r a < c := by
      clear h
      induction lo with
      | nil => exact ⟨0, by simp⟩
      | cons a lo ih =>
        obtain ⟨c, hc⟩ := ih
        refine ⟨max c (r a + 1), fun b hb => ?_⟩
        rcases List.mem_cons.mp hb with rfl | hb
        · exact lt_of_lt_of_le (by linarith) (le_max_right _ _)
        · exact lt_of_lt_of_le (hc b hb) (le_max_left _ _)
    exact ⟨c, hc, by simp⟩
  | cons b hi ih =>
    obtain ⟨q, h1, h2⟩ := ih fun a ha c hc => h a ha c (List.mem_cons_of_mem _ hc)
    obtain ⟨p, h3, h4⟩ := exists_rank r (min q (r b)) lo fun a ha => lt_min (h1 a ha) (h a ha b List.mem_cons_self)
    refine ⟨p, h4, fun c hc => ?_⟩
    rcases List.mem_cons.mp hc with rfl | hc
    · exact lt_of_lt_of_le h3 (min_le_right _ _)
    · exact lt_trans (lt_of_lt_of_le h3 (min_le_left _ _)) (h2 c hc)

/-! ## Negations -/

theorem isNegOne_val {I : Interp V} {g : Graph} {r : Nat → ℚ} {ρ : Nat → V} (h : Good I g r ρ) (fuel : Nat) : ∀ v ∈ g.ops,
    isNegOne g fuel v = true → ρ v = -1 := by
  induction fuel with
  | zero => intro v _ hn; cases hn
  | succ fuel ih =>
    intro v hv hn
    rw [isNegOne] at hn
    have hs := h.sat v hv
    split at hn
    · rename_i n args he
      have hargs := h.wf.nullary v hv (.int n) (by rw [he])
      rw [he] at hs hargs
      simp only at hargs hs
      rw [hargs, List.map_nil, I.int] at hs
      have : n = -1 := by simpa using hn
      rw [hs, this]; exact Arith.cast_neg_one
    · rename_i t a args he
      have hlen := h.wf.unary v hv (Or.inr (Or.inr (Or.inl ⟨t, by rw [he]⟩)))
      rw [he] at hlen hs
      have hnil : args = [] := by
        cases args with
        | nil => rfl
        | cons _ _ => simp at hlen
      subst hnil
      have ha : a ∈ g.ops := h.wf.closed v hv a (by rw [he]; simp)
      have hva := ih a ha hn
      simp only [List.map_cons, List.map_nil] at hs
      rw [hs, hva]
      have := I.cast t (-1)
      rwa [Arith.cast_neg_one] at this
    · cases hn

theorem Arith.neg_one_pow_even : ∀ {n : Nat}, n % 2 = 0 → (-1 : V) ^ n = 1
  | 0, _ => pow_zero _
  | 1, h => by cases h
  | n + 2, h => by
    rw [pow_succ, pow_succ, mul_assoc, Arith.neg_one_sq, mul_one]
    exact Arith.neg_one_pow_even (by omega)

theorem Arith.neg_one_pow_odd {n : Nat} (h : n % 2 = 1) : (-1 : V) ^ n = -1 := by
  obtain ⟨m, rfl⟩ : ∃ m, n = m + 1 := ⟨n - 1, by omega⟩
  rw [pow_succ, Arith.neg_one_pow_even (by omega), one_mul]

theorem prod_filter_negOne (ρ : Nat → V) (p : Nat → Bool) (l : List Nat) (h : ∀ a ∈ l, p a = true → ρ a = -1) :
    (l.map ρ).prod = (-1) ^ (l.length - (l.filter fun a => !p a).length) * ((l.filter fun a => !p a).map ρ).prod := by
  induction l with
  | nil => simp
  | cons a l ih =>
    have ih := ih fun b hb => h b (List.mem_cons_of_mem _ hb)
    have hle := List.length_filter_le (fun a => !p a) l
    rw [List.map_cons, List.prod_cons, ih]
    by_cases hp : p a = true
    · rw [h a List.mem_cons_self hp, List.filter_cons_of_neg (by simp [hp]), List.length_cons]
      have : l.length + 1 - (l.filter fun a => !p a).length = (l.length - (l.filter fun a => !p a).length) + 1 := by omega
      rw [this, pow_succ, mul_comm _ (-1 : V), mul_assoc]
    · rw [List.filter_cons_of_pos (by simp [hp]), List.length_cons, List.length_cons, List.map_cons, List.prod_cons, Nat.add_sub_add_right]
      exact mul_left_comm _ _ _

theorem productOf_cases (g : Graph) (l : List Nat) (h : l ≠ []) : (∃ x, l = [x] ∧ productOf g l = (g, x)) ∨ (2 ≤ l.length ∧ productOf g l = g.push .mul l) := by
  rcases l with _ | ⟨a, _ | ⟨b, l⟩⟩
  · exact absurd rfl h
  · exact Or.inl ⟨a, rfl, rfl⟩
  · exact Or.inr ⟨by simp, rfl⟩

theorem negationStep_reach {I : Interp V} (g : Graph) (r : Nat → ℚ) (ρ : Nat → V) (v : Nat) (h : Good I g r ρ) (hv : v ∈ g.ops) :
    ∃ g' r' ρ', negationStep g v = .ok g' ∧ Reach I g r ρ g' r' ρ' := by
  unfold negationStep
  by_cases hop : (g.node v).op = .mul
  · rw [if_neg (by simpa using hop)]
    simp only
    set p := isNegOne g (g.next + 1) with hp
    set others := (g.node v).args.filter fun a => !p a with hoth
    by_cases hz : (g.node v).args.length - others.length = 0 ∨ others = []
    · rw [if_pos hz]; exact ⟨g, r, ρ, rfl, h.refl⟩
    · rw [if_neg hz]
      rw [not_or] at hz
      have hsub : ∀ a ∈ others, a ∈ (g.node v).args := fun a ha => (List.mem_filter.mp ha).1
      have hops : ∀ a ∈ others, a ∈ g.ops := fun a ha => h.wf.closed v hv a (hsub a ha)
      have hrank : ∀ a ∈ others, r a < r v := fun a ha => h.ranked v hv a (hsub a ha)
      have hval : ρ v = (-1) ^ ((g.node v).args.length - others.length) * (others.map ρ).prod := by
        rw [h.sat v hv, hop, I.mul]
        exact prod_filter_negOne ρ p _ fun a ha hpa => isNegOne_val h _ a (h.wf.closed v hv a ha) hpa
      -- the product of the other factors
      obtain ⟨r1, ρ1, h1, hn1, hr1, hv1⟩ : ∃ r1 ρ1, Reach I g r ρ (productOf g others).1 r1 ρ1 ∧
          (productOf g others).2 ∈ (productOf g others).1.ops ∧
          r1 (productOf g others).2 < r v ∧
          ρ1 (productOf g others).2 = (others.map ρ).prod := by
        rcases productOf_cases g others hz.2 with ⟨x, he, hpo⟩ | ⟨hlen, hpo⟩
        · rw [hpo]
          refine ⟨r, ρ, h.refl, hops x (by rw [he]; simp), hrank x (by rw [he]; simp), by rw [he]; simp⟩
        · rw [hpo]
          obtain ⟨q, hq, hlq⟩ := exists_rank r (r v) others hrank
          obtain ⟨r1, ρ1, a, b, c, d⟩ := h.push' .mul others q hops hlq
            ⟨fun _ => by rw [length_mkNode]; exact hlen, fun hc => sorted_mkNode _ _ hc, fun hu => by simp [op_mkNode] at hu, fun l hl => by cases hl⟩ (fun k => by simp)
          refine ⟨r1, ρ1, a, d, ?_, ?_⟩
          · show r1 g.next < _
            rw [b]; exact hq
          · show ρ1 g.next = _
            rw [c, I.mul]
      generalize productOf g others = s at h1 hn1 hr1 hv1 ⊢
      have hvs := h1.sub v hv
      by_cases hodd : ((g.node v).args.length - others.length) % 2 = 1
      · rw [if_pos hodd]
        obtain ⟨q, hq, hlq⟩ := exists_rank r1 (r v) [s.2] (by simpa using hr1)
        obtain ⟨r2, ρ2, a, b, c, d⟩ := h1.good.push' .neg [s.2] q (by simpa using hn1) hlq
          ⟨(by intro hc; cases hc), (by intro hc; cases hc), fun _ => by rw [length_mkNode]; rfl, (by intro l hl; cases hl)⟩ (fun k => by simp)
        have hreach := h1.trans a
        have hvn : v ≠ s.1.next := by have := h1.good.wf.lt v hvs; omega
        have hrv : r2 v = r v := hreach.rank v hv
        obtain ⟨g', e, h3, _⟩ := a.good.replaceWith' (v := v) (w := s.1.next) hvn d (by
          rw [hreach.val v hv, c, hval, Arith.neg_one_pow_odd hodd]
          simp only [List.map_cons, List.map_nil]
          rw [I.neg, hv1, ← Arith.neg_eq]) (by rw [b, hrv]; exact hq.le)
        exact ⟨g', r2, ρ2, e, hreach.trans h3⟩
      · rw [if_neg hodd]
        have hvn : v ≠ s.2 := by
          rintro he
          rw [← he, h1.rank v hv] at hr1
          exact lt_irrefl _ hr1
        obtain ⟨g', e, h3, _⟩ := h1.good.replaceWith' (v := v) (w := s.2) hvn hn1 (by
          rw [h1.val v hv, hv1, hval, Arith.neg_one_pow_even (by omega), one_mul]) (by rw [h1.rank v hv]; exact hr1.le)
        exact ⟨g', r1, ρ1, e, h1.trans h3⟩
  · rw [if_pos (by simpa using hop)]
    exact ⟨g, r, ρ, rfl, h.refl⟩

/-! ## Merging products -/

theorem mergeStep_reach {I : Interp V} (g : Graph) (r : Nat → ℚ) (ρ : Nat → V) (v : Nat) (h : Good I g r ρ) (hv : v ∈ g.ops) :
    ∃ g', mergeStep g v = .ok g' ∧ Reach I g r ρ g' r ρ ∧ g'.ops = g.ops := by
  unfold mergeStep
  by_cases hop : (g.node v).op = .mul
  · rw [if_neg (by simpa using hop)]
    simp only
    set args := (g.node v).args.flatMap fun a => if (g.node a).op = .mul then (g.node a).args else [a] with hargs
    by_cases hl : args.length > (g.node v).args.length
    · rw [if_pos hl]
      have hmem : ∀ b ∈ args, b ∈ g.ops ∧ r b < r v := by
        intro b hb
        rw [hargs, List.mem_flatMap] at hb
        obtain ⟨a, ha, hb⟩ := hb
        have ha' := h.wf.closed v hv a ha
        have hr := h.ranked v hv a ha
        by_cases hm : (g.node a).op = .mul
        · rw [if_pos hm] at hb
          exact ⟨h.wf.closed a ha' b hb, (h.ranked a ha' b hb).trans hr⟩
        · rw [if_neg hm, List.mem_singleton] at hb
          rw [hb]; exact ⟨ha', hr⟩
      have hval : ∀ l : List Nat, (∀ a ∈ l, a ∈ g.ops) → ((l.flatMap fun a => if (g.node a).op = .mul then (g.node a).args else [a]).map ρ).prod = (l.map ρ).prod := by
        intro l
        induction l with
        | nil => simp
        | cons a l ih =>
          intro hl
          rw [List.flatMap_cons, List.map_append, List.prod_append, ih fun b hb => hl b (List.mem_cons_of_mem _ hb), List.map_cons, List.prod_cons]
          congr 1
          by_cases hm : (g.node a).op = .mul
          · rw [if_pos hm, h.sat a (hl a List.mem_cons_self), hm, I.mul]
          · rw [if_neg hm]; simp
      have hlen := h.wf.arity v hv (by rw [hop]; rfl)
      obtain ⟨h1, h2⟩ := h.setNode (v := v) (mkNode .mul args) hv
        ⟨fun _ => by rw [length_mkNode]; omega, fun hc => sorted_mkNode _ _ hc, fun hu => by simp [op_mkNode] at hu, fun l hl => by cases hl⟩
        (fun a ha => (hmem a (mem_mkNode.mp ha)).1) (fun a ha => (hmem a (mem_mkNode.mp ha)).2)
        (by rw [I.mkNode, I.mul, hargs, hval _ (h.wf.closed v hv), h.sat v hv, hop, I.mul]) (fun k hk => by rw [hop] at hk; cases hk) (fun k hk => by cases hk)
      refine ⟨_, rfl, ⟨h1, fun _ hu => hu, ?_, fun _ _ => rfl, fun _ _ => rfl, h2⟩, rfl⟩
      intro u _
      show (if u = v then mkNode .mul args else g.node u).op = _
      split
      · rename_i he; rw [he, hop]; rfl
      · rfl
    · rw [if_neg hl]; exact ⟨g, rfl, h.refl, rfl⟩
  · rw [if_pos (by simpa using hop)]
    exact ⟨g, rfl, h.refl, rfl⟩

/-! ## Pairs -/

theorem removeTimes_perm (x n : Nat) (l : List Nat) (h : n ≤ l.count x) : l.Perm (List.replicate n x ++ removeTimes x n l) := by
  induction l generalizing n with
  | nil =>
    simp only [List.count_nil, Nat.le_zero] at h
    subst h
    simp [removeTimes]
  | cons a l ih =>
    cases n with
    | zero => simp [removeTimes]
    | succ n =>
      rw [removeTimes]
      by_cases ha : a = x
      · rw [if_pos ha]
        subst ha
        rw [List.count_cons_self] at h
        rw [List.replicate_succ, List.cons_append]
        exact (ih n (by omega)).cons a
      · rw [if_neg ha]
        rw [List.count_cons_of_ne (by simpa using ha)] at h
        exact ((ih (n + 1) h).cons a).trans List.perm_middle.symm

theorem count_removeTimes_ne (x y n : Nat) (h : x ≠ y) (l : List Nat) (hn : n ≤ l.count x) : (removeTimes x n l).count y = l.count y := by
  have := (removeTimes_perm x n l hn).count_eq y
  rw [List.count_append, List.count_replicate, if_neg (by simpa using h), Nat.zero_add] at this
  exact this.symm

/-- The pairs taken out of an operand list. -/
theorem replacePair_perm (a b new : Nat) (n : Node) : ∃ rest : List Nat, (replacePair a b new n).1 = mkNode n.op (rest ++ List.replicate (replacePair a b new n).2 new) ∧
    n.args.Perm (List.replicate (replacePair a b new n).2 a ++ (List.replicate (replacePair a b new n).2 b ++ rest)) := by
  unfold replacePair
  simp only
  by_cases hab : a = b
  · subst hab
    rw [if_pos rfl]
    have h1 : n.args.count a / 2 ≤ n.args.count a := Nat.div_le_self _ _
    have p1 := removeTimes_perm a _ n.args h1
    refine ⟨_, rfl, p1.trans (List.Perm.append_left _ (removeTimes_perm a _ _ ?_))⟩
    have := p1.count_eq a
    rw [List.count_append, List.count_replicate_self] at this
    omega
  · rw [if_neg hab]
    have h1 : min (n.args.count a) (n.args.count b) ≤ n.args.count a := min_le_left _ _
    have p1 := removeTimes_perm a _ n.args h1
    refine ⟨_, rfl, p1.trans (List.Perm.append_left _ (removeTimes_perm b _ _ ?_))⟩
    rw [count_removeTimes_ne a b _ hab _ h1]
    exact min_le_right _ _

theorem Interp.pair (I : Interp V) {op : Op} (hop : op.commutative = true) (ρ : Nat → V) (a b new t : Nat) (rest : List Nat)
    (hnew : ρ new = I.f op [ρ a, ρ b]) :
    I.f op ((rest ++ List.replicate t new).map ρ) = I.f op ((List.replicate t a ++ (List.replicate t b ++ rest)).map ρ) := by
  cases op <;> simp only [Op.commutative, Bool.false_eq_true] at hop
  · rw [I.add] at hnew
    rw [I.add, I.add]
    simp only [List.map_append, List.map_replicate, List.sum_append, List.sum_replicate, hnew, List.sum_cons, List.sum_nil, add_zero, nsmul_add]
    rw [add_comm, add_assoc]
  · rw [I.mul] at hnew
    rw [I.mul, I.mul]
    simp only [List.map_append, List.map_replicate, List.prod_append, List.prod_replicate, hnew, List.prod_cons, List.prod_nil, mul_one, mul_pow]
    rw [mul_comm, mul_assoc]

/-- State while the consumers of the pair `(a, b)` are rewired to `new`. -/
structure PairInv (I : Interp V) (op : Op) (a b new : Nat) (g : Graph) (r : Nat → ℚ) (ρ : Nat → V) : Prop where
  good : Good I g r ρ
  mem : new ∈ g.ops
  ne : a ≠ new ∧ b ≠ new
  val : ρ new = I.f op [ρ a, ρ b]
  rank : ∀ c ∈ g.ops, c ≠ new → a ∈ (g.node c).args → b ∈ (g.node c).args → r new < r c

theorem pairConsumer_reach {I : Interp V} {op : Op} (hop : op.commutative = true) {a b new : Nat} {g : Graph} {r : Nat → ℚ} {ρ : Nat → V}
    (h : PairInv I op a b new g r ρ) {c : Nat} (hc : c ∈ g.ops) (hcn : c ≠ new) (hco : (g.node c).op = op) :
    ∃ g', pairConsumer a b new g c = .ok g' ∧ Reach I g r ρ g' r ρ ∧ PairInv I op a b new g' r ρ := by
  have hlen := h.good.wf.arity c hc (by rw [hco]; exact hop)
  unfold pairConsumer
  by_cases h2 : (g.node c).args.length > 2
  · rw [if_pos h2]
    obtain ⟨rest, he, hp⟩ := replacePair_perm a b new (g.node c)
    set t := (replacePair a b new (g.node c)).2
    have hl := hp.length_eq
    simp only [List.length_append, List.length_replicate] at hl
    have hmem : ∀ x ∈ rest, x ∈ (g.node c).args := fun x hx => hp.mem_iff.mpr (by simp [hx])
    have hab : 0 < t → a ∈ (g.node c).args ∧ b ∈ (g.node c).args := by
      intro ht
      constructor
      · rw [hp.mem_iff]; simp [List.mem_replicate]; exact Or.inl (by omega)
      · rw [hp.mem_iff]; simp [List.mem_replicate]; exact Or.inr (Or.inl (by omega))
    have hnewmem : ∀ x ∈ (replacePair a b new (g.node c)).1.args, x ∈ (g.node c).args ∨ (x = new ∧ 0 < t) := by
      intro x hx
      rw [he, mem_mkNode, List.mem_append, List.mem_replicate] at hx
      rcases hx with hx | ⟨ht, hx⟩
      · exact Or.inl (hmem x hx)
      · exact Or.inr ⟨hx, by omega⟩
    have hopn : (replacePair a b new (g.node c)).1.op = op := by rw [he, op_mkNode, hco]
    have hns : ∀ k, op ≠ .save k := by rintro k rfl; cases hop
    obtain ⟨g1, g2⟩ := h.good.setNode (v := c) (replacePair a b new (g.node c)).1 hc
      ⟨fun _ => by rw [he, length_mkNode, List.length_append, List.length_replicate]; omega, fun hc' => by rw [he] at hc' ⊢; exact sorted_mkNode _ _ hc',
        (by intro hu; rw [hopn] at hu; rcases hu with rfl | rfl | ⟨_, rfl⟩ | ⟨_, rfl⟩ <;> cases hop), fun l hl => by rw [hopn] at hl; subst hl; cases hop⟩
      (fun x hx => by
        rcases hnewmem x hx with hx | ⟨rfl, _⟩
        · exact h.good.wf.closed c hc x hx
        · exact h.mem)
      (fun x hx => by
        rcases hnewmem x hx with hx | ⟨rfl, ht⟩
        · exact h.good.ranked c hc x hx
        · exact h.rank c hc hcn (hab ht).1 (hab ht).2)
      (by
        rw [he, I.mkNode, hco, I.pair hop ρ a b new t rest h.val, h.good.sat c hc, hco]
        exact I.perm hop (hp.map ρ))
      (fun k hk => by rw [hco] at hk; exact absurd hk (hns k)) (fun k => by rw [hopn]; exact hns k)
    refine ⟨_, rfl, ⟨g1, fun _ hu => hu, ?_, fun _ _ => rfl, fun _ _ => rfl, g2⟩, ⟨g1, h.mem, h.ne, h.val, ?_⟩⟩
    · intro u _
      show (if u = c then (replacePair a b new (g.node c)).1 else g.node u).op = _
      split
      · rename_i hu; rw [hopn, hu, hco]
      · rfl
    · intro d hd hdn ha hb
      have hnd : (g.setNode c (replacePair a b new (g.node c)).1).node d = if d = c then (replacePair a b new (g.node c)).1 else g.node d := rfl
      rw [hnd] at ha hb
      by_cases hdc : d = c
      · rw [if_pos hdc] at ha hb
        rw [hdc]
        refine h.rank c hc hcn ?_ ?_
        · rcases hnewmem a ha with h' | ⟨h', _⟩
          · exact h'
          · exact absurd h' h.ne.1
        · rcases hnewmem b hb with h' | ⟨h', _⟩
          · exact h'
          · exact absurd h' h.ne.2
      · rw [if_neg hdc] at ha hb
        exact h.rank d hd hdn ha hb
  · rw [if_neg h2]
    have h2' : (g.node c).args.length = 2 := by omega
    rw [if_pos h2']
    by_cases hcond : (!g.isUnused c && (g.node c).args == [a, b]) = true
    · rw [if_pos hcond]
      rw [Bool.and_eq_true] at hcond
      have hargs : (g.node c).args = [a, b] := by simpa using hcond.2
      have hrank := h.rank c hc hcn (by rw [hargs]; simp) (by rw [hargs]; simp)
      obtain ⟨g', e, h1, hnode⟩ := h.good.replaceWith' hcn h.mem (by rw [h.good.sat c hc, hargs, hco, h.val]; rfl) hrank.le
      have hops : g'.ops = g.ops := by
        unfold Graph.replaceWith at e
        rw [if_neg hcn] at e
        cases e; rfl
      refine ⟨g', e, h1, ⟨h1.good, h1.sub new h.mem, h.ne, h.val, ?_⟩⟩
      intro d hd hdn ha hb
      rw [hnode] at ha hb
      refine h.rank d (by rw [← hops]; exact hd) hdn ?_ ?_
      · rcases mem_replaceArg ha with ⟨h', _⟩ | ⟨h', _⟩ | ⟨h', _⟩
        · exact absurd h' h.ne.1
        · exact h'
        · exact h'
      · rcases mem_replaceArg hb with ⟨h', _⟩ | ⟨h', _⟩ | ⟨h', _⟩
        · exact absurd h' h.ne.2
        · exact h'
        · exact h'
    · rw [if_neg hcond]
      exact ⟨g, rfl, h.good.refl, h⟩

theorem pairConsumers_reach {I : Interp V} {op : Op} (hop : op.commutative = true) {a b new : Nat} {r : Nat → ℚ} {ρ : Nat → V} (cs : List Nat) :
    ∀ (g : Graph) (active : List Nat), PairInv I op a b new g r ρ → (∀ c ∈ cs, c ∈ g.ops ∧ c ≠ new ∧ (g.node c).op = op) →
      ∃ g' active', pairConsumers a b new g active cs = .ok (g', active') ∧ Reach I g r ρ g' r ρ := by
  induction cs with
  | nil => intro g act h _; exact ⟨g, act, rfl, h.good.refl⟩
  | cons c cs ih =>
    intro g act h hcs
    obtain ⟨h1, h2, h3⟩ := hcs c List.mem_cons_self
    obtain ⟨g1, e1, r1, i1⟩ := pairConsumer_reach hop h h1 h2 h3
    obtain ⟨g2, act2, e2, r2⟩ := ih g1 (act ++ activated a b new g c) i1 fun d hd => by
      obtain ⟨h1, h2, h3⟩ := hcs d (List.mem_cons_of_mem _ hd)
      exact ⟨r1.sub d h1, h2, (r1.op d h1).trans h3⟩
    refine ⟨g2, act2, ?_, r1.trans r2⟩
    rw [pairConsumers, e1]; exact e2

/-- A step names values of the block and operations of the right kind. -/
def PairStep.Valid (op : Op) (g : Graph) (s : PairStep) : Prop :=
  s.a ∈ g.ops ∧ s.b ∈ g.ops ∧ ∀ c ∈ s.consumers, c ∈ g.ops ∧ (g.node c).op = op

theorem pairStep_reach {I : Interp V} {op : Op} (hop : op.commutative = true) {g : Graph} {r : Nat → ℚ} {ρ : Nat → V} (h : Good I g r ρ) {s : PairStep}
    (hs : s.Valid op g) (act : List Nat) : ∃ g' act' r' ρ', pairConsumers s.a s.b (g.push op [s.a, s.b]).2 (g.push op [s.a, s.b]).1 act s.consumers = .ok (g', act') ∧
      Reach I g r ρ g' r' ρ' := by
  obtain ⟨q, h1, h2⟩ := exists_rank_between r [s.a, s.b] (g.ops.filter fun c => decide (s.a ∈ (g.node c).args ∧ s.b ∈ (g.node c).args)) (by
    intro x hx c hc
    rw [List.mem_filter] at hc
    have hc2 := of_decide_eq_true hc.2
    simp only [List.mem_cons, List.not_mem_nil, or_false] at hx
    rcases hx with rfl | rfl
    · exact h.ranked c hc.1 _ hc2.1
    · exact h.ranked c hc.1 _ hc2.2)
  have hns : ∀ k, op ≠ .save k := by rintro k rfl; cases hop
  obtain ⟨r1, ρ1, hr, hq, hv, hm⟩ := h.push' op [s.a, s.b] q (by
      intro x hx
      simp only [List.mem_cons, List.not_mem_nil, or_false] at hx
      rcases hx with rfl | rfl
      · exact hs.1
      · exact hs.2.1) h1
    ⟨fun _ => by rw [length_mkNode]; rfl, fun hc => sorted_mkNode _ _ hc, (by intro hu; rw [op_mkNode] at hu; rcases hu with rfl | rfl | ⟨_, rfl⟩ | ⟨_, rfl⟩ <;> cases hop),
      fun l hl => by rw [op_mkNode] at hl; subst hl; cases hop⟩ hns
  have hne : ∀ v ∈ g.ops, v ≠ g.next := fun v hv => by have := h.wf.lt v hv; omega
  have hinv : PairInv I op s.a s.b g.next (g.push op [s.a, s.b]).1 r1 ρ1 := by
    refine ⟨hr.good, hm, ⟨hne _ hs.1, hne _ hs.2.1⟩, ?_, ?_⟩
    · rw [hv, hr.val _ hs.1, hr.val _ hs.2.1]; rfl
    · intro c hc hcn ha hb
      have hc' : c ∈ g.ops := by
        rcases List.mem_append.mp hc with hc | hc
        · exact hc
        · exact absurd (List.mem_singleton.mp hc) hcn
      have hnode : (g.push op [s.a, s.b]).1.node c = g.node c := if_neg hcn
      rw [hnode] at ha hb
      rw [hq, hr.rank c hc']
      exact h2 c (by rw [List.mem_filter]; exact ⟨hc', by simpa using ⟨ha, hb⟩⟩)
  obtain ⟨g', act', e, hr2⟩ := pairConsumers_reach hop s.consumers _ act hinv (by
    intro c hc
    obtain ⟨h3, h4⟩ := hs.2.2 c hc
    exact ⟨hr.sub c h3, hne c h3, (hr.op c h3).trans h4⟩)
  exact ⟨g', act', r1, ρ1, e, hr.trans hr2⟩

theorem PairStep.Valid.reach {I : Interp V} {op : Op} {g g' : Graph} {r r' : Nat → ℚ} {ρ ρ' : Nat → V} (h : Reach I g r ρ g' r' ρ') {s : PairStep}
    (hs : s.Valid op g) : s.Valid op g' :=
  ⟨h.sub _ hs.1, h.sub _ hs.2.1, fun c hc => ⟨h.sub c (hs.2.2 c hc).1, (h.op c (hs.2.2 c hc).1).trans (hs.2.2 c hc).2⟩⟩

theorem pairSteps_reach {I : Interp V} {op : Op} (hop : op.commutative = true) (ss : List PairStep) : ∀ (g : Graph) (act : List Nat) (r : Nat → ℚ) (ρ : Nat → V),
    Good I g r ρ → (∀ s ∈ ss, s.Valid op g) → ∃ g' act' r' ρ', pairSteps op g act ss = .ok (g', act') ∧ Reach I g r ρ g' r' ρ' := by
  induction ss with
  | nil => intro g act r ρ h _; exact ⟨g, act, r, ρ, rfl, h.refl⟩
  | cons s ss ih =>
    intro g act r ρ h hss
    obtain ⟨g1, act1, r1, ρ1, e1, h1⟩ := pairStep_reach hop h (hss s List.mem_cons_self) act
    obtain ⟨g2, act2, r2, ρ2, e2, h2⟩ := ih g1 act1 r1 ρ1 h1.good fun t ht => (hss t (List.mem_cons_of_mem _ ht)).reach h1
    refine ⟨g2, act2, r2, ρ2, ?_, h1.trans h2⟩
    rw [pairSteps, e1]; exact e2

theorem binarizeLoop_reach {I : Interp V} {op : Op} (hop : op.commutative = true) (choose : Graph → List Nat → List PairStep)
    (hch : ∀ g act, WF g → ∀ s ∈ choose g act, s.Valid op g) (fuel : Nat) : ∀ (g : Graph) (act : List Nat) (r : Nat → ℚ) (ρ : Nat → V) (g' : Graph),
    Good I g r ρ → binarizeLoop op choose fuel g act = .ok g' → ∃ r' ρ', Reach I g r ρ g' r' ρ' := by
  induction fuel with
  | zero =>
    intro g act r ρ g' h he
    match act with
    | [] => rw [binarizeLoop] at he; cases he; exact ⟨r, ρ, h.refl⟩
    | _ :: _ => rw [binarizeLoop] at he; cases he
  | succ fuel ih =>
    intro g act r ρ g' h he
    match act with
    | [] => rw [binarizeLoop] at he; cases he; exact ⟨r, ρ, h.refl⟩
    | a :: as =>
      rw [binarizeLoop] at he
      obtain ⟨g1, act1, r1, ρ1, e1, h1⟩ := pairSteps_reach hop (choose g (a :: as)) g [] r ρ h (hch g _ h.wf)
      rw [e1] at he
      obtain ⟨r2, ρ2, h2⟩ := ih g1 act1 r1 ρ1 g' h1.good he
      exact ⟨r2, ρ2, h1.trans h2⟩

/-! ### The pairs chosen by the program -/

theorem mem_operandCounts {l : List Nat} {x : Nat × Nat} (h : x ∈ operandCounts l) : x.1 ∈ l := by
  induction l generalizing x with
  | nil => simp [operandCounts] at h
  | cons a l ih =>
    rw [operandCounts] at h
    cases hl : operandCounts l with
    | nil =>
      rw [hl] at h
      simp only [List.mem_singleton] at h
      rw [h]; simp
    | cons b rest =>
      obtain ⟨b, n⟩ := b
      rw [hl] at h ih
      simp only at h
      split at h
      · rcases List.mem_cons.mp h with rfl | h
        · exact List.mem_cons_of_mem _ (ih (x := (b, n)) List.mem_cons_self)
        · exact List.mem_cons_of_mem _ (ih (List.mem_cons_of_mem _ h))
      · rcases List.mem_cons.mp h with rfl | h
        · exact List.mem_cons_self
        · exact List.mem_cons_of_mem _ (ih h)

theorem mem_operandPairs {l : List (Nat × Nat)} {x : (Nat × Nat) × Nat} (h : x ∈ operandPairs l) :
    (∃ m, (x.1.1, m) ∈ l) ∧ ∃ m, (x.1.2, m) ∈ l := by
  induction l with
  | nil => simp [operandPairs] at h
  | cons p l ih =>
    obtain ⟨a, m⟩ := p
    rw [operandPairs, List.mem_append, List.mem_append] at h
    rcases h with (h | h) | h
    · split at h
      · simp only [List.mem_singleton] at h
        rw [h]; exact ⟨⟨m, by simp⟩, ⟨m, by simp⟩⟩
      · simp at h
    · rw [List.mem_map] at h
      obtain ⟨q, hq, rfl⟩ := h
      exact ⟨⟨m, by simp⟩, ⟨q.2, by simp [hq]⟩⟩
    · obtain ⟨⟨m1, h1⟩, ⟨m2, h2⟩⟩ := ih h
      exact ⟨⟨m1, List.mem_cons_of_mem _ h1⟩, ⟨m2, List.mem_cons_of_mem _ h2⟩⟩

theorem tableAdd_forall {P : (Nat × Nat) → (Nat × Nat) → Prop} (key entry : Nat × Nat) (hp : P key entry) (t : List ((Nat × Nat) × List (Nat × Nat)))
    (ht : ∀ e ∈ t, ∀ x ∈ e.2, P e.1 x) : ∀ e ∈ tableAdd key entry t, ∀ x ∈ e.2, P e.1 x := by
  induction t with
  | nil =>
    intro e he x hx
    rw [tableAdd, List.mem_singleton] at he
    subst he
    rw [List.mem_singleton] at hx
    subst hx; exact hp
  | cons y t ih =>
    obtain ⟨k, es⟩ := y
    intro e he x hx
    rw [tableAdd] at he
    split at he
    · rename_i hk
      rcases List.mem_cons.mp he with rfl | he
      · rcases List.mem_append.mp hx with hx | hx
        · exact ht (k, es) List.mem_cons_self x hx
        · rw [List.mem_singleton] at hx
          subst hx; simp only; rw [hk]; exact hp
      · exact ht e (List.mem_cons_of_mem _ he) x hx
    · rcases List.mem_cons.mp he with rfl | he
      · exact ht (k, es) List.mem_cons_self x hx
      · exact ih (fun e he => ht e (List.mem_cons_of_mem _ he)) e he x hx

theorem foldl_inv {α β : Type} (Q : β → Prop) (f : β → α → β) (l : List α) (h : ∀ b, ∀ a ∈ l, Q b → Q (f b a)) (b : β) (hb : Q b) : Q (l.foldl f b) := by
  induction l generalizing b with
  | nil => exact hb
  | cons a l ih => exact ih (fun b x hx => h b x (List.mem_cons_of_mem _ hx)) _ (h b a List.mem_cons_self hb)

/-- Every recorded pair: both values are operands of every recorded consumer, which is an active operation of the right kind. -/
theorem countPairs_spec (op : Op) (g : Graph) (act : List Nat) : ∀ e ∈ countPairs op g act, ∀ x ∈ e.2,
    x.1 ∈ g.ops ∧ (g.node x.1).op = op ∧ x.1 ∈ act ∧ e.1.1 ∈ (g.node x.1).args ∧ e.1.2 ∈ (g.node x.1).args := by
  unfold countPairs
  refine foldl_inv (fun t : List ((Nat × Nat) × List (Nat × Nat)) => ∀ e ∈ t, ∀ x ∈ e.2, x.1 ∈ g.ops ∧ (g.node x.1).op = op ∧ x.1 ∈ act ∧ e.1.1 ∈ (g.node x.1).args ∧ e.1.2 ∈ (g.node x.1).args)
    _ _ ?_ _ (by simp)
  intro t v hv ht
  rw [List.mem_filter] at hv
  have hv2 : (g.node v).op = op ∧ v ∈ act := by
    have := hv.2
    simp only [Bool.and_eq_true, beq_iff_eq, List.contains_iff_mem] at this
    exact ⟨this.1.1, this.2⟩
  refine foldl_inv (fun t : List ((Nat × Nat) × List (Nat × Nat)) => ∀ e ∈ t, ∀ x ∈ e.2, x.1 ∈ g.ops ∧ (g.node x.1).op = op ∧ x.1 ∈ act ∧ e.1.1 ∈ (g.node x.1).args ∧ e.1.2 ∈ (g.node x.1).args)
    _ _ ?_ _ ht
  intro t p hp ht
  obtain ⟨⟨m1, h1⟩, ⟨m2, h2⟩⟩ := mem_operandPairs hp
  exact tableAdd_forall (P := fun k x => x.1 ∈ g.ops ∧ (g.node x.1).op = op ∧ x.1 ∈ act ∧ k.1 ∈ (g.node x.1).args ∧ k.2 ∈ (g.node x.1).args)
    p.1 (v, p.2) ⟨hv.1, hv2.1, hv2.2, mem_operandCounts (x := (p.1.1, m1)) h1, mem_operandCounts (x := (p.1.2, m2)) h2⟩ t ht

theorem identify_spec (op : Op) (g : Graph) (act : List Nat) (s : PairStep) (hs : s ∈ identify op g act) : s.consumers ≠ [] ∧ ∀ c ∈ s.consumers,
    c ∈ g.ops ∧ (g.node c).op = op ∧ c ∈ act ∧ s.a ∈ (g.node c).args ∧ s.b ∈ (g.node c).args := by
  unfold identify at hs
  rw [List.mem_map] at hs
  obtain ⟨e, he, rfl⟩ := hs
  rw [(List.perm_insertionSort _ _).mem_iff, List.mem_filter] at he
  refine ⟨?_, ?_⟩
  · intro hn
    have h0 : e.2 = [] := by simpa using hn
    have := he.2
    rw [h0] at this
    simp [totalMultiplicity] at this
  · intro c hc
    rw [List.mem_map] at hc
    obtain ⟨x, hx, rfl⟩ := hc
    exact countPairs_spec op g act e he.1 x hx

theorem identify_valid (op : Op) (g : Graph) (act : List Nat) (h : WF g) : ∀ s ∈ identify op g act, s.Valid op g := by
  intro s hs
  obtain ⟨h1, h2⟩ := identify_spec op g act s hs
  obtain ⟨c, hc⟩ := List.exists_mem_of_ne_nil _ h1
  obtain ⟨a1, _, _, a4, a5⟩ := h2 c hc
  exact ⟨h.closed c a1 _ a4, h.closed c a1 _ a5, fun d hd => ⟨(h2 d hd).1, (h2 d hd).2.1⟩⟩

end Wf.Gen
