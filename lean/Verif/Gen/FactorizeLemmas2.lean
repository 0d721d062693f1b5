import Mathlib.Tactic.Abel
import Verif.Gen.FactorizeLemmas
import Mathlib.Algebra.BigOperators.Ring.List
import Mathlib.Algebra.BigOperators.Group.List.Basic

/-! # Rewriting a sum of products -/

namespace Wf.Gen

variable {V : Type} [Arith V]

/-! ## Operand lists -/

theorem uniqueLoop_spec (l : List Nat) : ∀ last : Nat, (last :: l).Pairwise (· ≤ ·) →
    ((uniqueLoop last l).1 ++ (uniqueLoop last l).2).Perm (last :: l) ∧ (uniqueLoop last l).1.Pairwise (· < ·) ∧
    (∀ x ∈ last :: l, x ∈ (uniqueLoop last l).1) := by
  induction l with
  | nil => intro last _; exact ⟨by simp [uniqueLoop], by simp [uniqueLoop], by simp [uniqueLoop]⟩
  | cons a l ih =>
    intro last h
    rw [List.pairwise_cons] at h
    unfold uniqueLoop
    by_cases he : last = a
    · rw [if_pos he]
      subst he
      obtain ⟨h1, h2, h3⟩ := ih last h.2
      refine ⟨?_, h2, ?_⟩
      · exact List.perm_middle.trans (List.Perm.cons _ h1)
      · intro x hx
        rcases List.mem_cons.mp hx with rfl | hx
        · exact h3 x List.mem_cons_self
        · exact h3 x hx
    · rw [if_neg he]
      obtain ⟨h1, h2, h3⟩ := ih a h.2
      refine ⟨List.Perm.cons _ h1, ?_, ?_⟩
      · rw [List.pairwise_cons]
        refine ⟨?_, h2⟩
        intro b hb
        have hb' : b ∈ a :: l := h1.mem_iff.mp (List.mem_append_left _ hb)
        have hla := h.1 a List.mem_cons_self
        rcases List.mem_cons.mp hb' with rfl | hbl
        · omega
        · have := (List.pairwise_cons.mp h.2).1 b hbl
          omega
      · intro x hx
        rcases List.mem_cons.mp hx with rfl | hx
        · exact List.mem_cons_self
        · exact List.mem_cons_of_mem _ (h3 x hx)

theorem uniqueAndDuplicates_spec (l : List Nat) (h : l.Pairwise (· ≤ ·)) :
    ((uniqueAndDuplicates l).1 ++ (uniqueAndDuplicates l).2).Perm l ∧ (uniqueAndDuplicates l).1.Nodup ∧ ∀ x ∈ l, x ∈ (uniqueAndDuplicates l).1 := by
  cases l with
  | nil => exact ⟨by simp [uniqueAndDuplicates], by simp [uniqueAndDuplicates], by simp⟩
  | cons a l =>
    obtain ⟨h1, h2, h3⟩ := uniqueLoop_spec l a h
    exact ⟨h1, h2.imp (fun h => Nat.ne_of_lt h), h3⟩

theorem mem_variablesOf {vs : List Nat} (hnd : vs.Nodup) {bits a : Nat} : a ∈ variablesOf vs bits ↔ a ∈ vs ∧ bits.testBit (vs.idxOf a) = true := by
  unfold variablesOf
  simp only [List.mem_map, List.mem_filter, List.mem_range]
  constructor
  · rintro ⟨i, ⟨hi, hb⟩, rfl⟩
    have he : vs.getD i 0 = vs[i] := by simp [hi]
    rw [he]
    refine ⟨List.getElem_mem hi, ?_⟩
    rw [hnd.idxOf_getElem i hi]; exact hb
  · rintro ⟨ha, hb⟩
    have hi := List.idxOf_lt_length_of_mem ha
    refine ⟨vs.idxOf a, ⟨hi, hb⟩, ?_⟩
    simp [hi]

theorem nodup_variablesOf {vs : List Nat} (hnd : vs.Nodup) (bits : Nat) : (variablesOf vs bits).Nodup := by
  unfold variablesOf
  apply List.Nodup.map_on
  · intro i hi j hj he
    simp only [List.mem_filter, List.mem_range] at hi hj
    have h1 : vs.getD i 0 = vs[i] := by simp [hi.1]
    have h2 : vs.getD j 0 = vs[j] := by simp [hj.1]
    rw [h1, h2] at he
    exact (hnd.getElem_inj_iff).mp he
  · exact List.nodup_range.filter _

/-- A sorted product is the product of the factors taken out and of the remaining ones. -/
theorem split_product {vs : List Nat} (hnd : vs.Nodup) {bits : Nat} {l : List Nat} (hl : l.Pairwise (· ≤ ·)) (hsub : ∀ a ∈ l, a ∈ vs)
    (hb : ∀ i, bits.testBit i = true → i ∈ l.map fun a => vs.idxOf a) : (variablesOf vs bits ++ remainingOperands vs bits l).Perm l := by
  obtain ⟨h1, h2, h3⟩ := uniqueAndDuplicates_spec l hl
  refine List.Perm.trans ?_ h1
  unfold remainingOperands
  have hf : (variablesOf vs bits).Perm ((uniqueAndDuplicates l).1.filter fun a => bits.testBit (vs.idxOf a)) := by
    rw [List.perm_ext_iff_of_nodup (nodup_variablesOf hnd bits) (h2.filter _)]
    intro a
    rw [mem_variablesOf hnd, List.mem_filter]
    constructor
    · rintro ⟨hav, hab⟩
      refine ⟨?_, hab⟩
      obtain ⟨b, hbl, he⟩ := List.mem_map.mp (hb _ hab)
      have : b = a := by
        have := (List.idxOf_inj (hsub b hbl)).mp he
        exact this
      exact h3 a (this ▸ hbl)
    · rintro ⟨hau, hab⟩
      exact ⟨hsub a (h1.mem_iff.mp (List.mem_append_left _ hau)), hab⟩
  refine (hf.append_right _).trans ?_
  refine List.Perm.trans ?_ ((List.filter_append_perm (fun a => bits.testBit (vs.idxOf a)) (uniqueAndDuplicates l).1).append_right _)
  rw [List.append_assoc]
  exact (List.perm_append_comm).append_left _

theorem mem_remaining {vs : List Nat} {bits : Nat} {l : List Nat} (hl : l.Pairwise (· ≤ ·)) {a : Nat} (ha : a ∈ remainingOperands vs bits l) : a ∈ l := by
  obtain ⟨h1, _, _⟩ := uniqueAndDuplicates_spec l hl
  unfold remainingOperands at ha
  rw [List.mem_append, List.mem_filter] at ha
  rcases ha with h | h
  · exact h1.mem_iff.mp (List.mem_append_right _ h)
  · exact h1.mem_iff.mp (List.mem_append_left _ h.1)

theorem distinct_spec (l : List Nat) : ∀ vs : List Nat, vs.Nodup → (l.foldl (fun vs a => if a ∈ vs then vs else vs ++ [a]) vs).Nodup ∧
    ∀ a, a ∈ l.foldl (fun vs a => if a ∈ vs then vs else vs ++ [a]) vs ↔ a ∈ vs ∨ a ∈ l := by
  induction l with
  | nil => intro vs h; exact ⟨h, by simp⟩
  | cons b l ih =>
    intro vs h
    rw [List.foldl_cons]
    by_cases hb : b ∈ vs
    · rw [if_pos hb]
      obtain ⟨h1, h2⟩ := ih vs h
      refine ⟨h1, fun a => ?_⟩
      rw [h2, List.mem_cons]
      constructor
      · rintro (h | h)
        · exact Or.inl h
        · exact Or.inr (Or.inr h)
      · rintro (h | rfl | h)
        · exact Or.inl h
        · exact Or.inl hb
        · exact Or.inr h
    · rw [if_neg hb]
      obtain ⟨h1, h2⟩ := ih (vs ++ [b]) (by
        rw [List.nodup_append]
        refine ⟨h, by simp, ?_⟩
        intro x hx y hy he
        rw [List.mem_singleton] at hy
        exact hb (hy ▸ he ▸ hx))
      refine ⟨h1, fun a => ?_⟩
      rw [h2, List.mem_cons, List.mem_append, List.mem_singleton]
      tauto

theorem assignIndices_spec {products : List (List Nat)} {vs bits : List Nat} (h : assignIndices products = some (vs, bits)) :
    products.length ≤ 64 ∧ vs.length ≤ 64 ∧ vs.Nodup ∧ (∀ l ∈ products, ∀ a ∈ l, a ∈ vs) ∧ (∀ a ∈ vs, ∃ l ∈ products, a ∈ l) ∧
    bits = products.map fun l => setBits (l.map fun a => vs.idxOf a) := by
  unfold assignIndices at h
  by_cases h1 : products.length > 64
  · rw [if_pos h1] at h; cases h
  · rw [if_neg h1] at h
    by_cases h2 : (distinctOperands products).length > 64
    · rw [if_pos h2] at h; cases h
    · rw [if_neg h2] at h
      cases h
      obtain ⟨a, b⟩ := distinct_spec products.flatten [] List.nodup_nil
      refine ⟨by omega, by omega, a, ?_, ?_, rfl⟩
      · intro l hl x hx
        exact (b x).mpr (Or.inr (List.mem_flatten.mpr ⟨l, hl, hx⟩))
      · intro x hx
        rcases (b x).mp hx with h | h
        · cases h
        · exact List.mem_flatten.mp h

/-! ## New values -/

/-- All of `l` is in the block, below rank `c`. -/
def Below (g : Graph) (r : Nat → ℚ) (c : ℚ) (l : List Nat) : Prop := ∀ a ∈ l, a ∈ g.ops ∧ r a < c

theorem Below.reach {I : Interp V} {g g' : Graph} {r r' : Nat → ℚ} {ρ ρ' : Nat → V} {c : ℚ} {l : List Nat} (h : Below g r c l) (hr : Reach I g r ρ g' r' ρ') :
    Below g' r' c l := fun a ha => ⟨hr.sub a (h a ha).1, by rw [hr.rank a (h a ha).1]; exact (h a ha).2⟩

theorem Below.map {I : Interp V} {g g' : Graph} {r r' : Nat → ℚ} {ρ ρ' : Nat → V} {c : ℚ} {l : List Nat} (h : Below g r c l) (hr : Reach I g r ρ g' r' ρ') :
    l.map ρ' = l.map ρ := List.map_congr_left fun a ha => hr.val a (h a ha).1

/-- A new sum or product of values below `c`, itself below `c`. -/
theorem push_below {I : Interp V} {g : Graph} {r : Nat → ℚ} {ρ : Nat → V} (h : Good I g r ρ) (op : Op) (args : List Nat) (c : ℚ) (hb : Below g r c args)
    (hn : NodeWF (mkNode op args)) (hs : ∀ k, op ≠ .save k) :
    ∃ r' ρ', Reach I g r ρ (g.push op args).1 r' ρ' ∧ Below (g.push op args).1 r' c [(g.push op args).2] ∧ ρ' (g.push op args).2 = I.f op (args.map ρ) := by
  obtain ⟨q, hq, hlq⟩ := exists_rank r c args fun a ha => (hb a ha).2
  obtain ⟨r1, ρ1, h1, h2, h3, h4⟩ := h.push' op args q (fun a ha => (hb a ha).1) hlq hn hs
  refine ⟨r1, ρ1, h1, ?_, h3⟩
  intro a ha
  rw [List.mem_singleton.mp ha]
  exact ⟨h4, by show r1 g.next < c; rw [h2]; exact hq⟩

theorem nodeWF_comm {op : Op} {args : List Nat} (hop : op = .add ∨ op = .mul) (hl : 2 ≤ args.length) : NodeWF (mkNode op args) := by
  rcases hop with rfl | rfl <;>
    exact ⟨fun _ => by rw [length_mkNode]; exact hl, fun hc => sorted_mkNode _ _ hc, fun hu => by simp [op_mkNode] at hu, fun l hl => by cases hl⟩

theorem pushProduct_reach {I : Interp V} (cast : Option Nat) {g : Graph} {r : Nat → ℚ} {ρ : Nat → V} (h : Good I g r ρ) (l : List Nat) (c : ℚ) (hb : Below g r c l) :
    ∃ r' ρ', Reach I g r ρ (pushProduct cast g l).1 r' ρ' ∧ Below (pushProduct cast g l).1 r' c [(pushProduct cast g l).2] ∧
      ρ' (pushProduct cast g l).2 = (l.map ρ).prod := by
  rcases l with _ | ⟨a, _ | ⟨b, l⟩⟩
  · obtain ⟨r1, ρ1, h1, h2, h3⟩ := push_below h (.load (.int 1)) [] c hb
      ⟨(by intro hc; cases hc), (by intro hc; cases hc), fun hu => by simp [op_mkNode] at hu, fun l hl => by rfl⟩ (fun k => by simp)
    have hone : ρ1 (g.push (.load (.int 1)) []).2 = 1 := by
      rw [h3, List.map_nil, I.int]; exact Arith.cast_one
    cases cast with
    | none => exact ⟨r1, ρ1, h1, h2, hone⟩
    | some t =>
      obtain ⟨r2, ρ2, k1, k2, k3⟩ := push_below h1.good (.cast t) [(g.push (.load (.int 1)) []).2] c h2
        ⟨(by intro hc; cases hc), (by intro hc; cases hc), fun _ => by rw [length_mkNode]; rfl, (by intro l hl; cases hl)⟩ (fun k => by simp)
      refine ⟨r2, ρ2, h1.trans k1, k2, ?_⟩
      show ρ2 ((g.push (.load (.int 1)) []).1.push (.cast t) [(g.push (.load (.int 1)) []).2]).2 = _
      rw [k3, List.map_cons, List.map_nil, hone]
      have := I.cast t 1
      rwa [Arith.cast_one] at this
  · exact ⟨r, ρ, h.refl, hb, by simp [pushProduct]⟩
  · obtain ⟨r1, ρ1, h1, h2, h3⟩ := push_below h .mul (a :: b :: l) c hb (nodeWF_comm (Or.inr rfl) (by simp)) (fun k => by simp)
    exact ⟨r1, ρ1, h1, h2, by show ρ1 (g.push .mul (a :: b :: l)).2 = _; rw [h3, I.mul]⟩

theorem pushProducts_reach {I : Interp V} (cast : Option Nat) (ls : List (List Nat)) : ∀ {g : Graph} {r : Nat → ℚ} {ρ : Nat → V}, Good I g r ρ → ∀ c : ℚ,
    (∀ l ∈ ls, Below g r c l) → ∃ r' ρ', Reach I g r ρ (pushProducts cast g ls).1 r' ρ' ∧ Below (pushProducts cast g ls).1 r' c (pushProducts cast g ls).2 ∧
      (pushProducts cast g ls).2.map ρ' = ls.map fun l => (l.map ρ).prod := by
  induction ls with
  | nil => intro g r ρ h c _; exact ⟨r, ρ, h.refl, by intro a ha; simp [pushProducts] at ha, rfl⟩
  | cons l ls ih =>
    intro g r ρ h c hb
    obtain ⟨r1, ρ1, h1, h2, h3⟩ := pushProduct_reach cast h l c (hb l List.mem_cons_self)
    obtain ⟨r2, ρ2, k1, k2, k3⟩ := ih h1.good c fun l' hl' => (hb l' (List.mem_cons_of_mem _ hl')).reach h1
    refine ⟨r2, ρ2, h1.trans k1, ?_, ?_⟩
    · intro a ha
      rcases List.mem_cons.mp ha with rfl | ha
      · exact (h2.reach k1) _ (List.mem_singleton.mpr rfl)
      · exact k2 a ha
    · show ρ2 (pushProduct cast g l).2 :: _ = _
      rw [List.map_cons]
      congr 1
      · rw [k1.val _ (h2 _ (List.mem_singleton.mpr rfl)).1, h3]
      · rw [k3]
        exact List.map_congr_left fun l' hl' => by rw [(hb l' (List.mem_cons_of_mem _ hl')).map h1]

theorem length_pushProducts (cast : Option Nat) (ls : List (List Nat)) : ∀ g : Graph, (pushProducts cast g ls).2.length = ls.length := by
  induction ls with
  | nil => intro g; rfl
  | cons l ls ih => intro g; show _ + 1 = _; rw [ih]; rfl

/-- What the rewriting knows about the products. -/
structure Table (g : Graph) (r : Nat → ℚ) (c : ℚ) (vs : List Nat) (products : List (List Nat)) : Prop where
  nodup : vs.Nodup
  size : products.length ≤ 64
  vsize : vs.length ≤ 64
  sub : ∀ l ∈ products, ∀ a ∈ l, a ∈ vs
  vbelow : Below g r c vs
  below : ∀ l ∈ products, Below g r c l
  sorted : ∀ l ∈ products, l.Pairwise (· ≤ ·)

theorem Table.reach {I : Interp V} {g g' : Graph} {r r' : Nat → ℚ} {ρ ρ' : Nat → V} {c : ℚ} {vs : List Nat} {products : List (List Nat)}
    (h : Table g r c vs products) (hr : Reach I g r ρ g' r' ρ') : Table g' r' c vs products :=
  ⟨h.nodup, h.size, h.vsize, h.sub, h.vbelow.reach hr, fun l hl => (h.below l hl).reach hr, h.sorted⟩

/-- The bitsets of the products. -/
def bitsOf (vs : List Nat) (products : List (List Nat)) : List Nat := products.map fun l => setBits (l.map fun a => vs.idxOf a)

theorem bitsOf_getD (vs : List Nat) (products : List (List Nat)) {j : Nat} (hj : j < products.length) :
    (bitsOf vs products).getD j 0 = setBits ((products.getD j []).map fun a => vs.idxOf a) := by
  unfold bitsOf
  simp [hj]

theorem mem_groupOf {products : List (List Nat)} {bits : Nat} {l : List Nat} (h : l ∈ groupOf products bits) :
    ∃ j, j < products.length ∧ bits.testBit j = true ∧ products.getD j [] = l ∧ l ∈ products := by
  unfold groupOf at h
  simp only [List.mem_map, List.mem_filter, List.mem_range] at h
  obtain ⟨j, ⟨hj, hb⟩, rfl⟩ := h
  exact ⟨j, hj, hb, rfl, by simp [hj]⟩

/-- A sum of at least one term is multiplied term by term. -/
theorem Arith.mul_sum {α : Type} (a : V) (f : α → V) : ∀ {l : List α}, l ≠ [] → (l.map fun x => a * f x).sum = a * (l.map f).sum
  | [], h => absurd rfl h
  | [x], _ => by simp
  | x :: y :: l, _ => by
    have ih := Arith.mul_sum a f (l := y :: l) (by simp)
    rw [List.map_cons, List.sum_cons, ih, ← Arith.mul_add, ← List.sum_cons, ← List.map_cons]

theorem pushStep_reach {I : Interp V} (cast : Option Nat) {g : Graph} {r : Nat → ℚ} {ρ : Nat → V} (h : Good I g r ρ) {c : ℚ} {vs : List Nat} {products : List (List Nat)}
    (ht : Table g r c vs products) {s : FacStep} (hs : StepOK (bitsOf vs products) vs.length s) :
    ∃ g' w r' ρ', pushStep cast vs products g s = .ok (g', w) ∧ Reach I g r ρ g' r' ρ' ∧ Below g' r' c [w] ∧
      ρ' w = ((groupOf products s.2).map fun l => (l.map ρ).prod).sum := by
  have hlen : (bitsOf vs products).length = products.length := by unfold bitsOf; simp
  have hbound : ∀ j, s.2.testBit j = true → j < products.length := fun j hj => hlen ▸ hs.bound j hj
  obtain ⟨i, j, hij, hi, hj⟩ := hs.two
  obtain ⟨v, hv⟩ := hs.some
  have hcount2 : 2 ≤ bitCount s.2 := bitCount_of_two ht.size hbound hij hi hj
  have hcount1 : 1 ≤ bitCount s.1 := bitCount_pos ht.vsize hs.vars hv
  have hgl : (groupOf products s.2).length = bitCount s.2 := by
    rw [bitCount_eq ht.size hbound]; unfold groupOf; simp
  have hvl : (variablesOf vs s.1).length = bitCount s.1 := by
    rw [bitCount_eq ht.vsize hs.vars]; unfold variablesOf; simp
  have hsorted : ∀ l ∈ groupOf products s.2, l.Pairwise (· ≤ ·) := fun l hl => by
    obtain ⟨_, _, _, _, hm⟩ := mem_groupOf hl
    exact ht.sorted l hm
  have hsplit : ∀ l ∈ groupOf products s.2, (variablesOf vs s.1 ++ remainingOperands vs s.1 l).Perm l := by
    intro l hl
    obtain ⟨j, hj, hb, he, hm⟩ := mem_groupOf hl
    refine split_product ht.nodup (ht.sorted l hm) (ht.sub l hm) ?_
    intro i hi
    have := hs.common j i hb hi
    rw [bitsOf_getD vs products hj, he, testBit_setBits] at this
    exact this
  unfold pushStep
  rw [if_neg (by
    rintro (h | h | h | h | h)
    · omega
    · omega
    · exact h hsorted
    · omega
    · omega)]
  simp only
  obtain ⟨r1, ρ1, h1, h2, h3⟩ := pushProducts_reach cast ((groupOf products s.2).map (remainingOperands vs s.1)) h c (by
    intro l hl
    obtain ⟨l', hl', rfl⟩ := List.mem_map.mp hl
    obtain ⟨_, _, _, _, hm⟩ := mem_groupOf hl'
    intro a ha
    exact ht.below l' hm a (mem_remaining (hsorted l' hl') ha))
  have hplen := length_pushProducts cast ((groupOf products s.2).map (remainingOperands vs s.1)) g
  generalize pushProducts cast g ((groupOf products s.2).map (remainingOperands vs s.1)) = p at h1 h2 h3 hplen ⊢
  rw [List.length_map] at hplen
  obtain ⟨r2, ρ2, k1, k2, k3⟩ := push_below h1.good .add p.2 c h2 (nodeWF_comm (Or.inl rfl) (by omega)) (fun k => by simp)
  generalize p.1.push .add p.2 = q at k1 k2 k3 ⊢
  have hvb : Below g r c (variablesOf vs s.1) := fun a ha => ht.vbelow a ((mem_variablesOf ht.nodup).mp ha).1
  have h12 := h1.trans k1
  obtain ⟨r3, ρ3, m1, m2, m3⟩ := push_below k1.good .mul (variablesOf vs s.1 ++ [q.2]) c (by
    intro a ha
    rcases List.mem_append.mp ha with ha | ha
    · exact hvb.reach h12 a ha
    · exact k2 a ha) (nodeWF_comm (Or.inr rfl) (by rw [List.length_append]; simp; omega)) (fun k => by simp)
  refine ⟨_, _, r3, ρ3, rfl, h12.trans m1, m2, ?_⟩
  refine m3.trans ?_
  rw [I.mul, List.map_append, hvb.map h12, List.map_cons, List.map_nil, k3, I.add, h3, List.prod_append, List.prod_singleton, List.map_map]
  refine (Arith.mul_sum _ _ (l := groupOf products s.2) (by intro h0; rw [h0, List.length_nil] at hgl; omega)).symm.trans ?_
  congr 1
  apply List.map_congr_left
  intro l hl
  have := ((hsplit l hl).map ρ).prod_eq
  rw [List.map_append, List.prod_append] at this
  exact this

theorem pushSteps_reach {I : Interp V} (cast : Option Nat) {c : ℚ} {vs : List Nat} {products : List (List Nat)} (ss : List FacStep) :
    ∀ {g : Graph} {r : Nat → ℚ} {ρ : Nat → V}, Good I g r ρ → Table g r c vs products → (∀ s ∈ ss, StepOK (bitsOf vs products) vs.length s) →
    ∃ g' ws r' ρ', pushSteps cast vs products g ss = .ok (g', ws) ∧ Reach I g r ρ g' r' ρ' ∧ Below g' r' c ws ∧
      (ws.map ρ').sum = (ss.map fun s => ((groupOf products s.2).map fun l => (l.map ρ).prod).sum).sum := by
  induction ss with
  | nil => intro g r ρ h _ _; exact ⟨g, [], r, ρ, rfl, h.refl, (by intro a ha; cases ha), rfl⟩
  | cons s ss ih =>
    intro g r ρ h ht hs
    obtain ⟨g1, w, r1, ρ1, e1, h1, b1, v1⟩ := pushStep_reach cast h ht (hs s List.mem_cons_self)
    obtain ⟨g2, ws, r2, ρ2, e2, h2, b2, v2⟩ := ih h1.good (ht.reach h1) fun t htm => hs t (List.mem_cons_of_mem _ htm)
    refine ⟨g2, w :: ws, r2, ρ2, ?_, h1.trans h2, ?_, ?_⟩
    · rw [pushSteps, e1]
      simp only
      rw [e2]
    · intro a ha
      rcases List.mem_cons.mp ha with rfl | ha
      · exact b1.reach h2 _ (List.mem_singleton.mpr rfl)
      · exact b2 a ha
    · rw [List.map_cons, List.sum_cons, List.map_cons, List.sum_cons, v2, h2.val w (b1 w (List.mem_singleton.mpr rfl)).1, v1]
      congr 2
      apply List.map_congr_left
      intro t _
      congr 1
      apply List.map_congr_left
      intro l hl
      obtain ⟨_, _, _, _, hm⟩ := mem_groupOf hl
      rw [(ht.below l hm).map h1]

theorem sum_split (L : List Nat) (f : Nat → V) (m t : Nat) (h : ∀ j, t.testBit j = true → m.testBit j = true) :
    ((L.filter fun j => m.testBit j).map f).sum = ((L.filter fun j => t.testBit j).map f).sum + ((L.filter fun j => (andNot m t).testBit j).map f).sum := by
  induction L with
  | nil => simp
  | cons a L ih =>
    have hh := h a
    rw [List.filter_cons, List.filter_cons, List.filter_cons, testBit_andNot]
    cases h1 : t.testBit a <;> cases h2 : m.testBit a
    · simpa using ih
    · simp [ih]; abel
    · rw [h2, h1] at hh; simp at hh
    · simp [ih]; abel

theorem sum_groups (n : Nat) (f : Nat → V) (ss : List FacStep) : ∀ m : Nat, ss.Pairwise DisjointTerms → (∀ s ∈ ss, ∀ j, s.2.testBit j = true → m.testBit j = true) →
    (((List.range n).filter fun j => m.testBit j).map f).sum = (ss.map fun s => (((List.range n).filter fun j => s.2.testBit j).map f).sum).sum +
      (((List.range n).filter fun j => (ss.foldl (fun m s => andNot m s.2) m).testBit j).map f).sum := by
  induction ss with
  | nil => intro m _ _; simp
  | cons s ss ih =>
    intro m hp hm
    rw [List.pairwise_cons] at hp
    rw [sum_split _ f m s.2 (hm s List.mem_cons_self), ih (andNot m s.2) hp.2 (by
      intro t ht j hj
      rw [testBit_andNot, Bool.and_eq_true]
      refine ⟨hm t (List.mem_cons_of_mem _ ht) j hj, ?_⟩
      have := hp.1 t ht j
      cases h : s.2.testBit j
      · rfl
      · exact absurd ⟨h, hj⟩ this)]
    rw [List.map_cons, List.sum_cons, List.foldl_cons]
    abel

theorem map_range_getD (l : List Nat) : (List.range l.length).map (fun i => l.getD i 0) = l := by
  apply List.ext_getElem
  · simp
  · intro i h1 h2
    simp [h2]

theorem finishSum_reach {I : Interp V} {g : Graph} {r : Nat → ℚ} {ρ : Nat → V} (h : Good I g r ρ) (c : ℚ) (l : List Nat) (hb : Below g r c l) (hne : l ≠ []) :
    ∃ g' w r' ρ', finishSum g l = .ok (g', w) ∧ Reach I g r ρ g' r' ρ' ∧ Below g' r' c [w] ∧ ρ' w = (l.map ρ).sum := by
  rcases l with _ | ⟨a, _ | ⟨b, l⟩⟩
  · exact absurd rfl hne
  · exact ⟨g, a, r, ρ, rfl, h.refl, hb, by simp⟩
  · obtain ⟨r1, ρ1, h1, h2, h3⟩ := push_below h .add (a :: b :: l) c hb (nodeWF_comm (Or.inl rfl) (by simp)) (fun k => by simp)
    exact ⟨_, _, r1, ρ1, rfl, h1, h2, by refine h3.trans ?_; rw [I.add]⟩

/-- Rewriting one sum by a valid factorisation. -/
theorem factorizeSum_reach {I : Interp V} (cast : Option Nat) {g : Graph} {r : Nat → ℚ} {ρ : Nat → V} (h : Good I g r ρ) (c : ℚ) (vs muls nonMuls : List Nat)
    (fac : List FacStep) (hm : ∀ m ∈ muls, m ∈ g.ops ∧ r m < c ∧ (g.node m).op = .mul) (hnm : Below g r c nonMuls) (hne : muls ≠ [])
    (ht : Table g r c vs (muls.map fun m => (g.node m).args)) (hf : FacOK (bitsOf vs (muls.map fun m => (g.node m).args)) vs.length fac) :
    ∃ g' w r' ρ', factorizeSum cast vs muls fac g nonMuls = .ok (g', w) ∧ Reach I g r ρ g' r' ρ' ∧ Below g' r' c [w] ∧
      ρ' w = (muls.map ρ).sum + (nonMuls.map ρ).sum := by
  obtain ⟨g1, ws, r1, ρ1, e1, h1, b1, v1⟩ := pushSteps_reach cast fac h ht hf.steps
  set rest := ((List.range muls.length).filter fun i => (unfactoredTerms fac muls.length).testBit i).map (fun i => muls.getD i 0) with hrest
  have hmb : Below g r c muls := fun m hmm => ⟨(hm m hmm).1, (hm m hmm).2.1⟩
  have hrm : ∀ a ∈ rest, a ∈ muls := by
    intro a ha
    rw [hrest] at ha
    simp only [List.mem_map, List.mem_filter, List.mem_range] at ha
    obtain ⟨i, ⟨hi, _⟩, rfl⟩ := ha
    simp [hi]
  have hrb : Below g r c rest := fun a ha => hmb a (hrm a ha)
  have hlen : (bitsOf vs (muls.map fun m => (g.node m).args)).length = muls.length := by unfold bitsOf; simp
  -- the value of every product
  have hval : ∀ j, j < muls.length → ((((muls.map fun m => (g.node m).args).getD j []).map ρ).prod) = ρ (muls.getD j 0) := by
    intro j hj
    have hmem : muls[j] ∈ muls := List.getElem_mem hj
    obtain ⟨q1, _, q3⟩ := hm _ hmem
    have hs := h.sat _ q1
    rw [q3, I.mul] at hs
    simp [hj, hs]
  have hsum := sum_groups muls.length (fun j => ρ (muls.getD j 0)) fac (setBits (List.range muls.length)) hf.disjoint (by
    intro s hs j hj
    rw [testBit_setBits, List.mem_range, ← hlen]
    exact (hf.steps s hs).bound j hj)
  have hall : ((List.range muls.length).filter fun j => (setBits (List.range muls.length)).testBit j) = List.range muls.length := by
    rw [List.filter_eq_self]
    intro j hj
    exact (testBit_setBits _ _).mpr hj
  have hallsum : ((List.range muls.length).map fun j => ρ (muls.getD j 0)).sum = (muls.map ρ).sum := by
    conv_rhs => rw [← map_range_getD muls, List.map_map]
    rfl
  rw [hall, hallsum] at hsum
  have hws : (ws.map ρ1).sum = (fac.map fun s => (((List.range muls.length).filter fun j => s.2.testBit j).map fun j => ρ (muls.getD j 0)).sum).sum := by
    rw [v1]
    congr 1
    apply List.map_congr_left
    intro s _
    unfold groupOf
    rw [List.map_map, List.length_map]
    congr 1
    apply List.map_congr_left
    intro j hj
    exact hval j (List.mem_range.mp (List.mem_filter.mp hj).1)
  have hrv : (rest.map ρ).sum = (((List.range muls.length).filter fun j => (fac.foldl (fun m s => andNot m s.2) (setBits (List.range muls.length))).testBit j).map fun j => ρ (muls.getD j 0)).sum := by
    rw [hrest, List.map_map]; rfl
  have hneall : ws ++ nonMuls ++ rest ≠ [] := by
    intro he
    rw [List.append_eq_nil_iff, List.append_eq_nil_iff] at he
    obtain ⟨⟨hw0, _⟩, hr0⟩ := he
    -- no group and no product left over: impossible
    have hfac : fac = [] := by
      cases hfc : fac with
      | nil => rfl
      | cons s ss =>
        rw [hfc, pushSteps] at e1
        cases hp : pushStep cast vs (muls.map fun m => (g.node m).args) g s with
        | error e => rw [hp] at e1; cases e1
        | ok x =>
          rw [hp] at e1
          obtain ⟨gx, wx⟩ := x
          simp only at e1
          cases hq : pushSteps cast vs (muls.map fun m => (g.node m).args) gx ss with
          | error e => rw [hq] at e1; cases e1
          | ok y =>
            rw [hq] at e1
            obtain ⟨gy, wy⟩ := y
            simp only at e1
            cases e1
            cases hw0
    rw [hrest, hfac] at hr0
    unfold unfactoredTerms at hr0
    rw [List.foldl_nil, hall, map_range_getD] at hr0
    exact hne hr0
  obtain ⟨g2, w, r2, ρ2, e2, h2, b2, v2⟩ := finishSum_reach h1.good c (ws ++ nonMuls ++ rest) (by
    intro a ha
    rw [List.mem_append, List.mem_append] at ha
    rcases ha with (ha | ha) | ha
    · exact b1 a ha
    · exact hnm.reach h1 a ha
    · exact hrb.reach h1 a ha) hneall
  refine ⟨g2, w, r2, ρ2, ?_, h1.trans h2, b2, ?_⟩
  · unfold factorizeSum
    rw [e1]
    exact e2
  · rw [v2, List.map_append, List.map_append, List.sum_append, List.sum_append, hnm.map h1, hrb.map h1, hws, hrv, hsum]
    abel

theorem sum_filter_split (l : List Nat) (p : Nat → Bool) (ρ : Nat → V) : ((l.filter p).map ρ).sum + ((l.filter fun a => !p a).map ρ).sum = (l.map ρ).sum := by
  have := ((List.filter_append_perm p l).map ρ).sum_eq
  rw [List.map_append, List.sum_append] at this
  exact this

theorem factorizeStep_reach {I : Interp V} (choose : List Nat → Nat → Res (List (List FacStep))) (hch : SearchOK choose)
    (hok : ∀ bits n, n ≤ 64 → bits.length ≤ 64 → ∃ fs, choose bits n = .ok fs) (cast : Graph → Nat → Option Nat)
    (g : Graph) (r : Nat → ℚ) (ρ : Nat → V) (v : Nat) (h : Good I g r ρ) (hv : v ∈ g.ops) :
    ∃ g' r' ρ', factorizeStep choose cast g v = .ok g' ∧ Reach I g r ρ g' r' ρ' := by
  unfold factorizeStep
  by_cases hop : (g.node v).op = .add
  · rw [if_neg (by simpa using hop)]
    simp only
    set muls := (g.node v).args.filter fun a => (g.node a).op == .mul with hmuls
    set nonMuls := (g.node v).args.filter fun a => !((g.node a).op == .mul) with hnon
    by_cases hl : muls.length ≤ 1
    · rw [if_pos hl]; exact ⟨g, r, ρ, rfl, h.refl⟩
    · rw [if_neg hl]
      cases ha : assignIndices (muls.map fun m => (g.node m).args) with
      | none => exact ⟨g, r, ρ, rfl, h.refl⟩
      | some x =>
        obtain ⟨vs, bits⟩ := x
        obtain ⟨s1, s2, s3, s4, s5, s6⟩ := assignIndices_spec ha
        simp only
        have hblen : bits.length ≤ 64 := by rw [s6]; simpa using s1
        obtain ⟨fs, hfs⟩ := hok bits vs.length s2 hblen
        rw [hfs]
        cases fs with
        | nil => exact ⟨g, r, ρ, rfl, h.refl⟩
        | cons fac fs =>
          simp only
          have hfac := hch bits vs.length s2 hblen _ hfs fac List.mem_cons_self
          have hm : ∀ m ∈ muls, m ∈ g.ops ∧ r m < r v ∧ (g.node m).op = .mul := by
            intro m hmm
            have := List.mem_filter.mp hmm
            exact ⟨h.wf.closed v hv m this.1, h.ranked v hv m this.1, by simpa using this.2⟩
          have hpb : ∀ l ∈ muls.map fun m => (g.node m).args, Below g r (r v) l := by
            intro l hl a hal
            obtain ⟨m, hmm, rfl⟩ := List.mem_map.mp hl
            obtain ⟨q1, q2, _⟩ := hm m hmm
            exact ⟨h.wf.closed m q1 a hal, (h.ranked m q1 a hal).trans q2⟩
          have ht : Table g r (r v) vs (muls.map fun m => (g.node m).args) := by
            refine ⟨s3, s1, s2, s4, ?_, hpb, ?_⟩
            · intro a hav
              obtain ⟨l, hl, hal⟩ := s5 a hav
              exact hpb l hl a hal
            · intro l hl
              obtain ⟨m, hmm, rfl⟩ := List.mem_map.mp hl
              obtain ⟨q1, _, q3⟩ := hm m hmm
              exact h.wf.sorted m q1 (by rw [q3]; rfl)
          obtain ⟨g1, w, r1, ρ1, e1, h1, b1, v1⟩ := factorizeSum_reach (cast g v) h (r v) vs muls nonMuls fac hm
            (fun a haa => by have := (List.mem_filter.mp haa).1; exact ⟨h.wf.closed v hv a this, h.ranked v hv a this⟩)
            (by intro h0; rw [h0] at hl; simp at hl) ht (by unfold bitsOf; rw [← s6]; exact hfac)
          rw [e1]
          simp only
          obtain ⟨bw, bl⟩ := b1 w (List.mem_singleton.mpr rfl)
          have hvw : v ≠ w := by
            rintro rfl
            rw [h1.rank v hv] at bl
            exact lt_irrefl _ bl
          obtain ⟨g2, e2, h2, _⟩ := h1.good.replaceWith' (v := v) (w := w) hvw bw (by
            rw [v1, h1.val v hv, h.sat v hv, hop, I.add, hmuls, hnon, sum_filter_split]) (by rw [h1.rank v hv]; exact bl.le)
          exact ⟨g2, r1, ρ1, e2, h1.trans h2⟩
  · rw [if_pos (by simpa using hop)]
    exact ⟨g, r, ρ, rfl, h.refl⟩

end Wf.Gen
