import Verif.Gen.GraphSpec
import Mathlib.Data.Rat.Defs
import Mathlib.Algebra.Order.Ring.Rat
import Mathlib.Algebra.Order.Field.Basic
import Mathlib.Tactic.Linarith
import Mathlib.Tactic.Ring
import Mathlib.Data.List.Induction

/-! # Lemmas about the graph model -/

namespace Wf.Gen

variable {V : Type} [Arith V]

/-- Every operation has a larger rank than its operands: the block has no cycle. The ranks are rational so that a new operation always fits
between its operands and its consumers. -/
def Ranked (g : Graph) (r : Nat → ℚ) : Prop := ∀ v ∈ g.ops, ∀ a ∈ (g.node v).args, r a < r v

/-- `ρ` solves the equations of the block. -/
def Sat (I : Interp V) (g : Graph) (ρ : Nat → V) : Prop := ∀ v ∈ g.ops, ρ v = I.f (g.node v).op ((g.node v).args.map ρ)

/-- Outputs under a solution. -/
def Outs (g : Graph) (ρ : Nat → V) (key : Nat) (x : V) : Prop :=
  ∃ v ∈ g.ops, (g.node v).op = .save key ∧ (g.node v).args.map ρ = [x]

theorem Interp.perm (I : Interp V) {op : Op} (h : op.commutative = true) {l l' : List V} (hp : l.Perm l') : I.f op l = I.f op l' := by
  cases op <;> simp only [Op.commutative, Bool.false_eq_true] at h
  · rw [I.add, I.add]; exact hp.sum_eq
  · rw [I.mul, I.mul]; exact hp.prod_eq

theorem Interp.mkNode (I : Interp V) (op : Op) (args : List Nat) (ρ : Nat → V) :
    I.f (mkNode op args).op ((mkNode op args).args.map ρ) = I.f op (args.map ρ) := by
  unfold Gen.mkNode
  by_cases h : op.commutative = true
  · simp only [h, if_true]
    exact I.perm h ((List.perm_insertionSort _ _).map ρ)
  · simp only [h]; rfl

theorem mem_mkNode {op : Op} {args : List Nat} {a : Nat} : a ∈ (mkNode op args).args ↔ a ∈ args := by
  unfold mkNode
  by_cases h : op.commutative = true
  · simp only [h, if_true]; exact (List.perm_insertionSort _ _).mem_iff
  · simp only [h]; rfl

theorem length_mkNode (op : Op) (args : List Nat) : (mkNode op args).args.length = args.length := by
  unfold mkNode
  by_cases h : op.commutative = true
  · simp only [h, if_true]; exact (List.perm_insertionSort _ _).length_eq
  · simp only [h]; rfl

theorem perm_mkNode (op : Op) (args : List Nat) : (mkNode op args).args.Perm args := by
  unfold mkNode
  by_cases h : op.commutative = true
  · simp only [h, if_true]; exact List.perm_insertionSort _ _
  · simp only [h]; exact List.Perm.refl _

theorem op_mkNode (op : Op) (args : List Nat) : (mkNode op args).op = op := rfl

theorem sorted_mkNode (op : Op) (args : List Nat) (h : op.commutative = true) : (mkNode op args).args.Pairwise (· ≤ ·) := by
  unfold mkNode
  simp only [h, if_true]
  exact List.pairwise_insertionSort _ _

theorem mkNode_of_not_comm {op : Op} (args : List Nat) (h : op.commutative = false) : (mkNode op args).args = args := by
  unfold mkNode; simp [h]

/-- A node meets the structural rules on its own. -/
structure NodeWF (n : Node) : Prop where
  arity : n.op.commutative = true → 2 ≤ n.args.length
  sorted : n.op.commutative = true → n.args.Pairwise (· ≤ ·)
  unary : n.op = .neg ∨ n.op = .copy ∨ (∃ t, n.op = .cast t) ∨ (∃ k, n.op = .save k) → n.args.length = 1
  nullary : ∀ l, n.op = .load l → n.args = []

theorem WF.node {g : Graph} (h : WF g) {v : Nat} (hv : v ∈ g.ops) : NodeWF (g.node v) :=
  ⟨h.arity v hv, h.sorted v hv, h.unary v hv, h.nullary v hv⟩

theorem WF.of {g : Graph} (h1 : g.ops.Nodup) (h2 : ∀ v ∈ g.ops, v < g.next) (h3 : ∀ v ∈ g.ops, ∀ a ∈ (g.node v).args, a ∈ g.ops)
    (h4 : ∀ v ∈ g.ops, NodeWF (g.node v)) : WF g :=
  ⟨h1, h2, h3, fun v hv => (h4 v hv).arity, fun v hv => (h4 v hv).sorted, fun v hv => (h4 v hv).unary, fun v hv => (h4 v hv).nullary⟩

/-- Everything kept by the passes. -/
structure Good (I : Interp V) (g : Graph) (r : Nat → ℚ) (ρ : Nat → V) : Prop where
  wf : WF g
  ranked : Ranked g r
  sat : Sat I g ρ

/-! ## Rewiring -/

theorem replaceArg_wf {n : Node} (h : NodeWF n) (v w : Nat) : NodeWF (replaceArg v w n) := by
  unfold replaceArg
  by_cases hv : v ∈ n.args
  · rw [if_pos hv]
    refine ⟨fun hc => ?_, fun hc => sorted_mkNode _ _ hc, fun hu => ?_, fun l hl => ?_⟩
    · rw [length_mkNode, List.length_map]; exact h.arity hc
    · rw [length_mkNode, List.length_map]; exact h.unary hu
    · have := h.nullary l hl; rw [this] at hv; simp at hv
  · rw [if_neg hv]; exact h

theorem mem_replaceArg {n : Node} {v w a : Nat} (h : a ∈ (replaceArg v w n).args) : (a = w ∧ v ∈ n.args) ∨ (a ∈ n.args ∧ a ≠ v ∨ a ∈ n.args ∧ v ∉ n.args) := by
  unfold replaceArg at h
  by_cases hv : v ∈ n.args
  · rw [if_pos hv, mem_mkNode, List.mem_map] at h
    obtain ⟨x, hx, he⟩ := h
    by_cases hxv : x = v
    · rw [if_pos hxv] at he; exact Or.inl ⟨he.symm, hv⟩
    · rw [if_neg hxv] at he; subst he; exact Or.inr (Or.inl ⟨hx, hxv⟩)
  · rw [if_neg hv] at h; exact Or.inr (Or.inr ⟨h, hv⟩)

theorem op_replaceArg (v w : Nat) (n : Node) : (replaceArg v w n).op = n.op := by
  unfold replaceArg; split <;> rfl

theorem length_replaceArg (v w : Nat) (n : Node) : (replaceArg v w n).args.length = n.args.length := by
  unfold replaceArg
  split
  · rw [length_mkNode, List.length_map]
  · rfl

theorem eval_replaceArg (I : Interp V) (ρ : Nat → V) {v w : Nat} (h : ρ v = ρ w) (n : Node) :
    I.f (replaceArg v w n).op ((replaceArg v w n).args.map ρ) = I.f n.op (n.args.map ρ) := by
  unfold replaceArg
  split
  · rw [I.mkNode, List.map_map]
    congr 1
    apply List.map_congr_left
    intro a _
    simp only [Function.comp_apply]
    split
    · rename_i h2; rw [h2, h]
    · rfl
  · rfl

omit [Arith V] in
theorem map_replaceArg_save (ρ : Nat → V) {v w : Nat} (h : ρ v = ρ w) (n : Node) {k : Nat} (hs : n.op = .save k) :
    (replaceArg v w n).args.map ρ = n.args.map ρ := by
  unfold replaceArg
  split
  · rw [mkNode_of_not_comm _ (by rw [hs]; rfl), List.map_map]
    apply List.map_congr_left
    intro a _
    simp only [Function.comp_apply]
    split
    · rename_i h2; rw [h2, h]
    · rfl
  · rfl

/-- Rewiring to a value that is equal and not later. -/
theorem Good.replaceWith {I : Interp V} {g : Graph} {r : Nat → ℚ} {ρ : Nat → V} (h : Good I g r ρ) {v w : Nat} (hvw : v ≠ w) (hw : w ∈ g.ops)
    (he : ρ v = ρ w) (hr : r w ≤ r v) : ∃ g', g.replaceWith v w = .ok g' ∧ Good I g' r ρ ∧ g'.ops = g.ops ∧ g'.next = g.next ∧
      (∀ u, g'.node u = replaceArg v w (g.node u)) ∧ ∀ k x, Outs g' ρ k x ↔ Outs g ρ k x := by
  refine ⟨{ g with node := fun i => replaceArg v w (g.node i) }, by unfold Graph.replaceWith; rw [if_neg hvw], ⟨?_, ?_, ?_⟩, rfl, rfl, fun _ => rfl, ?_⟩
  · refine WF.of h.wf.nodup h.wf.lt ?_ fun u hu => replaceArg_wf (h.wf.node hu) v w
    intro u hu a ha
    rcases mem_replaceArg ha with ⟨rfl, _⟩ | ⟨ha, _⟩ | ⟨ha, _⟩
    · exact hw
    · exact h.wf.closed u hu a ha
    · exact h.wf.closed u hu a ha
  · intro u hu a ha
    rcases mem_replaceArg ha with ⟨rfl, hv⟩ | ⟨ha, _⟩ | ⟨ha, _⟩
    · exact lt_of_le_of_lt hr (h.ranked u hu v hv)
    · exact h.ranked u hu a ha
    · exact h.ranked u hu a ha
  · intro u hu
    show ρ u = I.f (replaceArg v w (g.node u)).op ((replaceArg v w (g.node u)).args.map ρ)
    rw [eval_replaceArg I ρ he]
    exact h.sat u hu
  · intro k x
    unfold Outs
    simp only [op_replaceArg]
    constructor
    · rintro ⟨u, hu, hs, hx⟩
      exact ⟨u, hu, hs, by rw [← map_replaceArg_save ρ he _ hs]; exact hx⟩
    · rintro ⟨u, hu, hs, hx⟩
      exact ⟨u, hu, hs, by rw [map_replaceArg_save ρ he _ hs]; exact hx⟩

/-! ## New operations -/

theorem Good.push {I : Interp V} {g : Graph} {r : Nat → ℚ} {ρ : Nat → V} (h : Good I g r ρ) (op : Op) (args : List Nat) (q : ℚ)
    (hargs : ∀ a ∈ args, a ∈ g.ops) (hq : ∀ a ∈ args, r a < q) (hn : NodeWF (mkNode op args)) (hs : ∀ k, op ≠ .save k) :
    Good I (g.push op args).1 (fun i => if i = g.next then q else r i) (fun i => if i = g.next then I.f op (args.map ρ) else ρ i) ∧
      (∀ k x, Outs (g.push op args).1 (fun i => if i = g.next then I.f op (args.map ρ) else ρ i) k x ↔ Outs g ρ k x) := by
  have hne : ∀ v ∈ g.ops, v ≠ g.next := fun v hv => by have := h.wf.lt v hv; omega
  have hmap : ∀ l : List Nat, (∀ a ∈ l, a ∈ g.ops) → l.map (fun i => if i = g.next then I.f op (args.map ρ) else ρ i) = l.map ρ := by
    intro l hl
    apply List.map_congr_left
    intro a ha
    rw [if_neg (hne a (hl a ha))]
  have hnode : ∀ v ∈ g.ops, (g.push op args).1.node v = g.node v := fun v hv => if_neg (hne v hv)
  have hnew : (g.push op args).1.node g.next = mkNode op args := if_pos rfl
  have hops : (g.push op args).1.ops = g.ops ++ [g.next] := rfl
  refine ⟨⟨WF.of ?_ ?_ ?_ ?_, ?_, ?_⟩, ?_⟩
  · rw [hops, List.nodup_append]
    exact ⟨h.wf.nodup, by simp, fun a ha b hb => by simp at hb; subst hb; exact hne a ha⟩
  · intro v hv
    rw [hops, List.mem_append, List.mem_singleton] at hv
    show v < g.next + 1
    rcases hv with hv | rfl
    · have := h.wf.lt v hv; omega
    · omega
  · intro v hv a ha
    rw [hops, List.mem_append, List.mem_singleton] at hv ⊢
    rcases hv with hv | rfl
    · rw [hnode v hv] at ha; exact Or.inl (h.wf.closed v hv a ha)
    · rw [hnew, mem_mkNode] at ha; exact Or.inl (hargs a ha)
  · intro v hv
    rw [hops, List.mem_append, List.mem_singleton] at hv
    rcases hv with hv | rfl
    · rw [hnode v hv]; exact h.wf.node hv
    · rw [hnew]; exact hn
  · intro v hv a ha
    rw [hops, List.mem_append, List.mem_singleton] at hv
    rcases hv with hv | rfl
    · rw [hnode v hv] at ha
      simp only [if_neg (hne v hv), if_neg (hne a (h.wf.closed v hv a ha))]
      exact h.ranked v hv a ha
    · rw [hnew, mem_mkNode] at ha
      simp only [if_true, if_neg (hne a (hargs a ha))]
      exact hq a ha
  · intro v hv
    rw [hops, List.mem_append, List.mem_singleton] at hv
    rcases hv with hv | rfl
    · rw [hnode v hv, hmap _ (h.wf.closed v hv)]
      simp only [if_neg (hne v hv)]
      exact h.sat v hv
    · rw [hnew, hmap _ (fun a ha => hargs a (mem_mkNode.mp ha)), I.mkNode]
      simp only [if_true]
  · intro k x
    constructor
    · rintro ⟨v, hv, h1, h2⟩
      rw [hops, List.mem_append, List.mem_singleton] at hv
      rcases hv with hv | rfl
      · rw [hnode v hv] at h1 h2
        rw [hmap _ (h.wf.closed v hv)] at h2
        exact ⟨v, hv, h1, h2⟩
      · rw [hnew] at h1; exact absurd h1 (hs k)
    · rintro ⟨v, hv, h1, h2⟩
      refine ⟨v, by rw [hops, List.mem_append]; exact Or.inl hv, by rw [hnode v hv]; exact h1, ?_⟩
      rw [hnode v hv, hmap _ (h.wf.closed v hv)]
      exact h2

/-- Overwriting the operation of `v` by one with the same value. -/
theorem Good.setNode {I : Interp V} {g : Graph} {r : Nat → ℚ} {ρ : Nat → V} (h : Good I g r ρ) {v : Nat} (n : Node) (hv : v ∈ g.ops)
    (hn : NodeWF n) (hargs : ∀ a ∈ n.args, a ∈ g.ops) (hr : ∀ a ∈ n.args, r a < r v) (he : ρ v = I.f n.op (n.args.map ρ))
    (hs : ∀ k, (g.node v).op = .save k → ∃ u ∈ g.ops, u ≠ v ∧ g.node u = g.node v) (hs' : ∀ k, n.op ≠ .save k) :
    Good I (g.setNode v n) r ρ ∧ ∀ k x, Outs (g.setNode v n) ρ k x ↔ Outs g ρ k x := by
  have hnode : ∀ u, (g.setNode v n).node u = if u = v then n else g.node u := fun _ => rfl
  refine ⟨⟨WF.of h.wf.nodup h.wf.lt ?_ ?_, ?_, ?_⟩, ?_⟩
  · intro u hu a ha
    rw [hnode] at ha
    by_cases huv : u = v
    · rw [if_pos huv] at ha; exact hargs a ha
    · rw [if_neg huv] at ha; exact h.wf.closed u hu a ha
  · intro u hu
    rw [hnode]
    by_cases huv : u = v
    · rw [if_pos huv]; exact hn
    · rw [if_neg huv]; exact h.wf.node hu
  · intro u hu a ha
    rw [hnode] at ha
    by_cases huv : u = v
    · rw [if_pos huv] at ha; rw [huv]; exact hr a ha
    · rw [if_neg huv] at ha; exact h.ranked u hu a ha
  · intro u hu
    rw [hnode]
    by_cases huv : u = v
    · rw [if_pos huv, huv]; exact he
    · rw [if_neg huv]; exact h.sat u hu
  · intro k x
    unfold Outs
    simp only [hnode]
    constructor
    · rintro ⟨u, hu, h1, h2⟩
      by_cases huv : u = v
      · rw [if_pos huv] at h1; exact absurd h1 (hs' k)
      · rw [if_neg huv] at h1 h2; exact ⟨u, hu, h1, h2⟩
    · rintro ⟨u, hu, h1, h2⟩
      by_cases huv : u = v
      · rw [huv] at h1 h2
        obtain ⟨w, hw, hwv, he⟩ := hs k h1
        exact ⟨w, hw, by rw [if_neg hwv, he]; exact h1, by rw [if_neg hwv, he]; exact h2⟩
      · exact ⟨u, hu, by rw [if_neg huv]; exact h1, by rw [if_neg huv]; exact h2⟩

/-! ## Removal -/

/-- What `reverseRemove` leaves: the kept operations are unchanged, nothing refers to a removed one, sinks are kept. -/
structure Removed (g : Graph) (vs : List Nat) (g' : Graph) (kept : List Nat) : Prop where
  ops : g'.ops = g.ops
  next : g'.next = g.next
  sub : kept.Sublist vs
  node : ∀ u, (u ∉ vs ∨ u ∈ kept) → g'.node u = g.node u
  gone : ∀ u, u ∈ vs → u ∉ kept → (g'.node u).args = [] ∧ (g'.node u).op = (g.node u).op ∧ ∀ w ∈ g.ops, u ∉ (g'.node w).args
  sinks : ∀ u, u ∈ vs → (g.node u).op.isSink = true → u ∈ kept
  dead : ∀ u, u ∈ vs → g.isUnused u = true → u ∉ kept
  args : ∀ u, (g'.node u).args = (g.node u).args ∨ (g'.node u).args = []
  op : ∀ u, (g'.node u).op = (g.node u).op

theorem reverseRemove_spec (g : Graph) (vs : List Nat) (hnd : vs.Nodup) :
    Removed g vs (reverseRemove g vs).1 (reverseRemove g vs).2 := by
  induction vs with
  | nil => exact ⟨rfl, rfl, List.Sublist.refl _, fun _ _ => rfl, fun u hu => by simp at hu, fun u hu => by simp at hu, fun u hu => by simp at hu,
    fun _ => Or.inl rfl, fun _ => rfl⟩
  | cons v vs ih =>
    rw [List.nodup_cons] at hnd
    have ih := ih hnd.2
    rw [reverseRemove]
    set g1 := (reverseRemove g vs).1
    set kept := (reverseRemove g vs).2
    have hvk : v ∉ kept := fun hk => hnd.1 (ih.sub.subset hk)
    by_cases hu : g1.isUnused v = true
    · simp only [hu, if_true]
      have hunused : ∀ w ∈ g.ops, v ∉ (g1.node w).args := by
        intro w hw
        unfold Graph.isUnused at hu
        rw [Bool.and_eq_true, List.all_eq_true] at hu
        have := hu.1 w (by rw [ih.ops]; exact hw)
        simpa using this
      have hnode : ∀ u, (g1.remove v).node u = if u = v then ⟨(g1.node v).op, []⟩ else g1.node u := fun _ => rfl
      refine ⟨ih.ops, ih.next, ih.sub.trans (List.sublist_cons_self _ _), ?_, ?_, ?_, ?_, ?_, ?_⟩
      · intro u hu'
        rw [hnode]
        have huv : u ≠ v := by
          rintro rfl
          rcases hu' with h | h
          · exact h List.mem_cons_self
          · exact hvk h
        rw [if_neg huv]
        apply ih.node
        rcases hu' with h | h
        · exact Or.inl fun h' => h (List.mem_cons_of_mem _ h')
        · exact Or.inr h
      · intro u hu' hk
        by_cases huv : u = v
        · subst huv
          refine ⟨by rw [hnode, if_pos rfl], by rw [hnode, if_pos rfl, ← ih.node u (Or.inl hnd.1)], ?_⟩
          intro w hw
          rw [hnode]
          split
          · simp
          · exact hunused w hw
        · have hu2 : u ∈ vs := by
            rcases List.mem_cons.mp hu' with h | h
            · exact absurd h huv
            · exact h
          obtain ⟨h1, h2, h3⟩ := ih.gone u hu2 hk
          refine ⟨by rw [hnode, if_neg huv]; exact h1, by rw [hnode, if_neg huv]; exact h2, ?_⟩
          intro w hw
          rw [hnode]
          split
          · simp
          · exact h3 w hw
      · intro u hu' hsink
        rcases List.mem_cons.mp hu' with rfl | h
        · unfold Graph.isUnused at hu
          rw [ih.node u (Or.inl hnd.1), hsink] at hu
          simp at hu
        · exact ih.sinks u h hsink
      · intro u hu' hd hk
        rcases List.mem_cons.mp hu' with rfl | h
        · exact hvk hk
        · exact ih.dead u h hd hk
      · intro u
        rw [hnode]
        split
        · exact Or.inr rfl
        · exact ih.args u
      · intro u
        rw [hnode]
        split
        · rename_i h; rw [h]; exact ih.op v
        · exact ih.op u
    · simp only [hu]
      refine ⟨ih.ops, ih.next, ih.sub.cons_cons v, ?_, ?_, ?_, ?_, ih.args, ih.op⟩
      · intro u hu'
        apply ih.node
        by_cases huv : u = v
        · subst huv; exact Or.inl hnd.1
        · rcases hu' with h | h
          · exact Or.inl fun h' => h (List.mem_cons_of_mem _ h')
          · rcases List.mem_cons.mp h with h | h
            · exact absurd h huv
            · exact Or.inr h
      · intro u hu' hk
        have huv : u ≠ v := by rintro rfl; exact hk List.mem_cons_self
        have hu2 : u ∈ vs := by
          rcases List.mem_cons.mp hu' with h | h
          · exact absurd h huv
          · exact h
        exact ih.gone u hu2 fun h => hk (List.mem_cons_of_mem _ h)
      · intro u hu' hsink
        rcases List.mem_cons.mp hu' with rfl | h
        · exact List.mem_cons_self
        · exact List.mem_cons_of_mem _ (ih.sinks u h hsink)
      · intro u hu' hd hk
        have huv : u ≠ v := by
          rintro rfl
          apply hu
          unfold Graph.isUnused at hd ⊢
          rw [Bool.and_eq_true, List.all_eq_true] at hd ⊢
          refine ⟨fun w hw => ?_, by rw [ih.op]; exact hd.2⟩
          rcases ih.args w with h | h
          · rw [h]; exact hd.1 w (by rw [← ih.ops]; exact hw)
          · rw [h]; rfl
        rcases List.mem_cons.mp hu' with h | h
        · exact huv h
        · rcases List.mem_cons.mp hk with h' | h'
          · exact huv h'
          · exact ih.dead u h hd h'

theorem Good.removeUnused {I : Interp V} {g : Graph} {r : Nat → ℚ} {ρ : Nat → V} (h : Good I g r ρ) :
    Good I g.removeUnused r ρ ∧ (∀ k x, Outs g.removeUnused ρ k x ↔ Outs g ρ k x) ∧ g.removeUnused.ops.Sublist g.ops ∧ g.removeUnused.next = g.next ∧
      ∀ u ∈ g.removeUnused.ops, g.removeUnused.node u = g.node u := by
  have S := reverseRemove_spec g g.ops h.wf.nodup
  have hops : g.removeUnused.ops = (reverseRemove g g.ops).2 := rfl
  have hnode : ∀ u ∈ g.removeUnused.ops, g.removeUnused.node u = g.node u := fun u hu => S.node u (Or.inr hu)
  have hsub : ∀ u ∈ g.removeUnused.ops, u ∈ g.ops := fun u hu => S.sub.subset hu
  refine ⟨⟨WF.of (h.wf.nodup.sublist S.sub) ?_ ?_ ?_, ?_, ?_⟩, ?_, S.sub, S.next, hnode⟩
  · intro v hv
    show v < (reverseRemove g g.ops).1.next
    rw [S.next]; exact h.wf.lt v (hsub v hv)
  · intro v hv a ha
    have ha' : a ∈ g.ops := by rw [hnode v hv] at ha; exact h.wf.closed v (hsub v hv) a ha
    by_contra hc
    exact (S.gone a ha' hc).2.2 v (hsub v hv) ha
  · intro v hv
    rw [hnode v hv]; exact h.wf.node (hsub v hv)
  · intro v hv a ha
    rw [hnode v hv] at ha
    exact h.ranked v (hsub v hv) a ha
  · intro v hv
    rw [hnode v hv]; exact h.sat v (hsub v hv)
  · intro k x
    constructor
    · rintro ⟨v, hv, h1, h2⟩
      rw [hnode v hv] at h1 h2
      exact ⟨v, hsub v hv, h1, h2⟩
    · rintro ⟨v, hv, h1, h2⟩
      have hk : v ∈ g.removeUnused.ops := S.sinks v hv (by rw [h1]; rfl)
      exact ⟨v, hk, by rw [hnode v hk]; exact h1, by rw [hnode v hk]; exact h2⟩

/-- Only the order of the block changes. -/
theorem Good.reorder {I : Interp V} {g : Graph} {r : Nat → ℚ} {ρ : Nat → V} (h : Good I g r ρ) {l : List Nat} (hp : l.Perm g.ops) :
    Good I { g with ops := l } r ρ ∧ ∀ k x, Outs { g with ops := l } ρ k x ↔ Outs g ρ k x := by
  refine ⟨⟨WF.of (hp.nodup_iff.mpr h.wf.nodup) (fun v hv => h.wf.lt v (hp.mem_iff.mp hv)) (fun v hv a ha => hp.mem_iff.mpr (h.wf.closed v (hp.mem_iff.mp hv) a ha))
    (fun v hv => h.wf.node (hp.mem_iff.mp hv)), fun v hv => h.ranked v (hp.mem_iff.mp hv), fun v hv => h.sat v (hp.mem_iff.mp hv)⟩, ?_⟩
  intro k x
  constructor
  · rintro ⟨v, hv, h1, h2⟩; exact ⟨v, hp.mem_iff.mp hv, h1, h2⟩
  · rintro ⟨v, hv, h1, h2⟩; exact ⟨v, hp.mem_iff.mpr hv, h1, h2⟩

/-! ## Running -/

theorem runFrom_not_mem (I : Interp V) (g : Graph) (ρ : Nat → V) (vs : List Nat) (u : Nat) (h : u ∉ vs) : runFrom I g ρ vs u = ρ u := by
  induction vs generalizing ρ with
  | nil => rfl
  | cons v vs ih =>
    rw [runFrom, ih _ fun h' => h (List.mem_cons_of_mem _ h')]
    exact if_neg fun h' => h (by rw [h']; exact List.mem_cons_self)

theorem run_sat_aux (I : Interp V) (g : Graph) (vs : List Nat) (pre : List Nat) (hnd : (pre ++ vs).Nodup)
    (hord : ∀ l v l', vs = l ++ v :: l' → ∀ a ∈ (g.node v).args, a ∈ pre ++ l) (ρ : Nat → V)
    (hpre : ∀ v ∈ pre, (∀ a ∈ (g.node v).args, a ∈ pre) ∧ ρ v = I.f (g.node v).op ((g.node v).args.map ρ)) :
    ∀ v ∈ pre ++ vs, runFrom I g ρ vs v = I.f (g.node v).op ((g.node v).args.map (runFrom I g ρ vs)) := by
  induction vs generalizing pre ρ with
  | nil =>
    intro v hv
    rw [List.append_nil] at hv
    exact (hpre v hv).2
  | cons x xs ih =>
    rw [runFrom]
    have hx : x ∉ pre := by
      intro h
      rw [List.nodup_append] at hnd
      exact hnd.2.2 x h x List.mem_cons_self rfl
    have hargs : ∀ a ∈ (g.node x).args, a ∈ pre := by
      intro a ha
      simpa using hord [] x xs rfl a ha
    have hmap : ∀ l : List Nat, (∀ a ∈ l, a ∈ pre) → l.map (fun i => if i = x then I.f (g.node x).op ((g.node x).args.map ρ) else ρ i) = l.map ρ := by
      intro l hl
      apply List.map_congr_left
      intro a ha
      apply if_neg
      rintro rfl
      exact hx (hl _ ha)
    have := ih (pre ++ [x]) (by simpa using hnd) (by
      intro l v l' he a ha
      have := hord (x :: l) v l' (by rw [he]; rfl) a ha
      simpa using this) (fun i => if i = x then I.f (g.node x).op ((g.node x).args.map ρ) else ρ i) (by
      intro v hv
      rw [List.mem_append, List.mem_singleton] at hv
      rcases hv with hv | rfl
      · refine ⟨fun a ha => List.mem_append_left _ ((hpre v hv).1 a ha), ?_⟩
        rw [if_neg (by rintro rfl; exact hx hv), hmap _ (hpre v hv).1]
        exact (hpre v hv).2
      · refine ⟨fun a ha => List.mem_append_left _ (hargs a ha), ?_⟩
        rw [hmap _ hargs]
        exact if_pos rfl)
    intro v hv
    exact this v (by simpa using hv)

/-- Running a block in dependency order solves its equations. -/
theorem run_sat (I : Interp V) {g : Graph} (hnd : g.ops.Nodup) (ho : InOrder g) : Sat I g (run I g) := by
  have := run_sat_aux I g g.ops [] (by simpa using hnd) (by intro l v l' he a ha; simpa using ho l v l' he a ha) (fun _ => 0) (by simp)
  intro v hv
  exact this v (by simpa using hv)

/-- Solutions are unique. -/
theorem sat_unique (I : Interp V) {g : Graph} (h : WF g) (ho : InOrder g) {ρ ρ' : Nat → V} (h1 : Sat I g ρ) (h2 : Sat I g ρ') :
    ∀ v ∈ g.ops, ρ v = ρ' v := by
  have key : ∀ l l', g.ops = l ++ l' → ∀ v ∈ l, ρ v = ρ' v := by
    intro l
    induction l using List.reverseRecOn with
    | nil => simp
    | append_singleton l x ih =>
      intro l' he v hv
      have he' : g.ops = l ++ x :: l' := by simpa using he
      have hl := ih (x :: l') he'
      rw [List.mem_append, List.mem_singleton] at hv
      rcases hv with hv | rfl
      · exact hl v hv
      · have hx : v ∈ g.ops := by rw [he']; simp
        rw [h1 v hx, h2 v hx]
        congr 1
        apply List.map_congr_left
        intro a ha
        exact hl a (ho l v l' he' a ha)
  intro v hv
  exact key g.ops [] (by simp) v hv

theorem writes_iff_outs (I : Interp V) {g : Graph} (h : WF g) (ho : InOrder g) {ρ : Nat → V} (hs : Sat I g ρ) (k : Nat) (x : V) :
    Writes I g k x ↔ Outs g ρ k x := by
  have hu := sat_unique I h ho (run_sat I h.nodup ho) hs
  have hmap : ∀ v ∈ g.ops, (g.node v).args.map (run I g) = (g.node v).args.map ρ := fun v hv =>
    List.map_congr_left fun a ha => hu a (h.closed v hv a ha)
  constructor
  · rintro ⟨v, hv, h1, h2⟩; exact ⟨v, hv, h1, by rw [← hmap v hv]; exact h2⟩
  · rintro ⟨v, hv, h1, h2⟩; exact ⟨v, hv, h1, by rw [hmap v hv]; exact h2⟩

/-! ## Order and ranks -/

/-- Position in the block as rank. -/
def posRank (g : Graph) (v : Nat) : ℚ := (g.ops.idxOf v : ℚ)

theorem ranked_posRank {g : Graph} (hnd : g.ops.Nodup) (ho : InOrder g) : Ranked g (posRank g) := by
  intro v hv a ha
  obtain ⟨l, l', he⟩ := List.append_of_mem hv
  have hal := ho l v l' he a ha
  unfold posRank
  rw [he, List.idxOf_append_of_mem hal]
  have hvl : v ∉ l := by
    rw [he, List.nodup_append] at hnd
    intro h
    exact hnd.2.2 v h v List.mem_cons_self rfl
  rw [List.idxOf_append_of_notMem hvl, List.idxOf_cons_self]
  have := List.idxOf_lt_length_of_mem hal
  exact_mod_cast (by omega : l.idxOf a < l.length + 0)

theorem inOrder_of_pairwise {g : Graph} {r : Nat → ℚ} (hc : ∀ v ∈ g.ops, ∀ a ∈ (g.node v).args, a ∈ g.ops) (hr : Ranked g r)
    (hp : g.ops.Pairwise fun a b => r a < r b) : InOrder g := by
  intro l v l' he a ha
  have hv : v ∈ g.ops := by rw [he]; simp
  have h1 := hc v hv a ha
  have h2 := hr v hv a ha
  rw [he] at h1 hp
  rw [List.pairwise_append, List.pairwise_cons] at hp
  rw [List.mem_append, List.mem_cons] at h1
  rcases h1 with h | rfl | h
  · exact h
  · exact absurd h2 (lt_irrefl _)
  · exact absurd (hp.2.1.1 a h) (not_lt.mpr h2.le)

theorem pairwise_posRank {g : Graph} (hnd : g.ops.Nodup) : g.ops.Pairwise fun a b => posRank g a < posRank g b := by
  rw [List.pairwise_iff_getElem]
  intro i j hi hj hij
  unfold posRank
  rw [List.Nodup.idxOf_getElem hnd, List.Nodup.idxOf_getElem hnd]
  exact_mod_cast hij

end Wf.Gen
