import Verif.Gen.FlowOnly
import Verif.Gen.GraphProps

/-!
# Properties of the conversion of conditionals to control flow

C40. The specification is in `FlowSpec.lean`: the blocks are run one after another, a phi function takes the operand that belongs to the block the
run came from, and reading a value that has not been computed is an error. Operations keep their names in the conversion.
-/

namespace Wf.Gen

open Conv

variable {g : Graph} {usage : Nat → Usage} {ternaries : Bool} {s : Conv} {entry : Nat}

/-- Everything that is known about the final state. -/
theorem convert_facts (hw : WF g) (ho : InOrder g) (hc : Convertible g) (usage : Nat → Usage) (ternaries : Bool) :
    ∃ t W, convert g usage ternaries = .ok (t.eliminateCopies (List.range t.blocks), W.entry) ∧ Inv g usage ternaries t W ∧ (∀ v ∈ g.ops, t.visited v = true) ∧
      Lazy g t W ∧ Placed (t.eliminateCopies (List.range t.blocks)) ∧
      (∀ (V : Type) [Arith V] (I : Interp V) (truth : V → Bool), Selects I truth →
        Outcome I truth (t.eliminateCopies (List.range t.blocks)) t.blocks W.entry (fun u => ∃ b ∈ W.path (taken truth t (flowVal I g t)), u ∈ t.ops b)
          (fun key y => Writes I g key y ∧ (usage key = .optional → truth (I.f (.outputRequired key) []) = true))) ∧
      (ternaries = true → ∀ b, ∀ v ∈ (t.eliminateCopies (List.range t.blocks)).ops b, ((t.eliminateCopies (List.range t.blocks)).node v).op ≠ .cond) := by
  obtain ⟨t, W, e, h, hall, hz, _⟩ := convert_ok ⟨hw, ho, hc⟩ usage ternaries
  have hg : Input g := ⟨hw, ho, hc⟩
  have hp := h.to_placed hg hall
  refine ⟨t, W, e, h, hall, hz, (eliminateCopies_keeps (Q := fun _ => True) (fun _ _ _ _ _ _ _ _ _ => trivial) (List.range t.blocks) t hp trivial).1, ?_, ?_⟩
  · intro V _ I truth hsel
    exact (eliminateCopies_keeps (Q := fun x => Outcome I truth x t.blocks W.entry _ _) (fun _ _ _ _ hp ho hv hx _ => Outcome.drop hp hv hx ho)
      (List.range t.blocks) t hp (outcome_ok hg h hall hsel)).2
  · intro ht
    refine (eliminateCopies_keeps (Q := fun t => ∀ b, ∀ v ∈ t.ops b, (t.node v).op ≠ .cond) ?_ (List.range t.blocks) t hp ?_).2
    · intro t b v x hp hq _ _ _ d u hu
      obtain ⟨h1, h2⟩ := mem_drop_ops.1 hu
      rw [drop_node hp h1 h2, op_replaceArg]
      exact hq d u h1
    · intro b v hv hop
      by_cases hm : v ∈ g.ops
      · rcases h.placed v hm (hall v hm) with ⟨e, hcnd⟩ | ⟨x, y, e, _⟩
        · rw [e] at hop; exact hcnd ht hop
        · rw [e] at hop; cases hop
      · rcases (h.made v (hp.live b v hv) hm).2 with ⟨_, _, e, _⟩ | ⟨_, _, e, _⟩ | ⟨_, e⟩ | ⟨_, _, e, _⟩ <;> rw [e] at hop <;> cases hop

/-- C40: the conversion succeeds; exactly one block has no predecessor; and the program started there runs to its end without reading a value
before it is computed, does no operation twice, and writes exactly the values of the input program to the outputs, except that optional
outputs are written only if they are wanted. This holds with and without the conversion of conditionals. -/
theorem C40_outputs (hw : WF g) (ho : InOrder g) (hc : Convertible g) (usage : Nat → Usage) (ternaries : Bool) :
    ∃ s entry, convert g usage ternaries = .ok (s, entry) ∧ entry < s.blocks ∧ (∀ b < s.blocks, s.anc b = [] ↔ b = entry) ∧
      ∀ (V : Type) [Arith V] (I : Interp V) (truth : V → Bool), Selects I truth →
        ∃ m, exec I truth s s.blocks none entry .start = some m ∧ m.done.Nodup ∧
          ∀ key x, m.Writes s key x ↔ Writes I g key x ∧ (usage key = .optional → truth (I.f (.outputRequired key) []) = true) := by
  obtain ⟨t, W, e, h, _, _, _, hout, _⟩ := convert_facts hw ho hc usage ternaries
  obtain ⟨_, _, h3, _, h5⟩ := eliminateCopies_same (List.range t.blocks) t
  refine ⟨_, _, e, ?_, ?_, ?_⟩
  · rw [h5]; exact (h.blocks _).1 W.entry_mem
  · intro b hb
    rw [h5] at hb
    rw [h3]
    exact h.root_iff hb
  · intro V _ I truth hsel
    obtain ⟨m, h1, h2, _, _, h4⟩ := hout V I truth hsel
    rw [h5]
    exact ⟨m, h1, h2, h4⟩

/-- C40: when conditionals are converted, none is left. -/
theorem C40_no_conditionals (hw : WF g) (ho : InOrder g) (hc : Convertible g) (h : convert g usage true = .ok (s, entry)) :
    ∀ b, ∀ v ∈ s.ops b, (s.node v).op ≠ .cond := by
  obtain ⟨t, W, e, _, _, _, _, _, hn⟩ := convert_facts hw ho hc usage true
  rw [e] at h
  cases h
  exact hn rfl

/-- C40: a phi function has one operand for every predecessor of its block, in the same order, and the operand is computed in that predecessor
(the assignment is generated at the end of the block the operand is in). -/
theorem C40_phi_operands (hw : WF g) (ho : InOrder g) (hc : Convertible g) (h : convert g usage ternaries = .ok (s, entry)) :
    ∀ b, ∀ v ∈ s.ops b, (s.node v).op = .phi → (s.node v).args.map s.parent = (s.anc b).map some := by
  obtain ⟨t, W, e, _, _, _, hp, _, _⟩ := convert_facts hw ho hc usage ternaries
  rw [e] at h
  cases h
  exact fun b v hv ho => hp.phi b v hv ho

/-- C40: an operation that is needed, directly or not, only for the second operand of a conditional is done only if the condition is true, and one
needed only for the third operand only if it is false. -/
theorem C40_lazy_branches (hw : WF g) (ho : InOrder g) (hc : Convertible g) (h : convert g usage true = .ok (s, entry)) {v c a b : Nat} (hv : v ∈ g.ops)
    (hn : g.node v = ⟨.cond, [c, a, b]⟩) {V : Type} [Arith V] (I : Interp V) (truth : V → Bool) (hsel : Selects I truth) {m : Machine V}
    (hm : exec I truth s s.blocks none entry .start = some m) {w : Nat} (hdone : w ∈ m.done) :
    (OnlyFor g (fun u j => u = v ∧ j = 1) w → truth (run I g c) = true) ∧ (OnlyFor g (fun u j => u = v ∧ j = 2) w → truth (run I g c) = false) := by
  obtain ⟨t, W, e, hi, hall, hz, _, hout, _⟩ := convert_facts hw ho hc usage true
  obtain ⟨_, _, _, _, h5⟩ := eliminateCopies_same (List.range t.blocks) t
  rw [e] at h
  cases h
  obtain ⟨m', h1, _, hD, _⟩ := hout V I truth hsel
  rw [h5, h1] at hm
  cases hm
  obtain ⟨⟨d, hd, hwd⟩, _⟩ := hD w hdone
  exact only_branch ⟨hw, ho, hc⟩ hi hall hz hv hn hd hwd

/-- C40: an operation that is needed, directly or not, only for an optional output is done only if the output is wanted. -/
theorem C40_lazy_outputs (hw : WF g) (ho : InOrder g) (hc : Convertible g) (h : convert g usage ternaries = .ok (s, entry)) {v key : Nat} (hv : v ∈ g.ops)
    (hn : (g.node v).op = .save key) (hu : usage key = .optional) {V : Type} [Arith V] (I : Interp V) (truth : V → Bool) (hsel : Selects I truth)
    {m : Machine V} (hm : exec I truth s s.blocks none entry .start = some m) {w : Nat} (hdone : w ∈ m.done) (hw' : OnlyFor g (fun u _ => u = v) w) :
    truth (I.f (.outputRequired key) []) = true := by
  obtain ⟨t, W, e, hi, hall, hz, _, hout, _⟩ := convert_facts hw ho hc usage ternaries
  obtain ⟨_, _, _, _, h5⟩ := eliminateCopies_same (List.range t.blocks) t
  rw [e] at h
  cases h
  obtain ⟨m', h1, _, hD, _⟩ := hout V I truth hsel
  rw [h5, h1] at hm
  cases hm
  obtain ⟨⟨d, hd, hwd⟩, _⟩ := hD w hdone
  exact only_optional ⟨hw, ho, hc⟩ hi hall hz hv hn hu hd hwd hw'

/-! ## Examples -/

/-- `x`, `y`, `x < y`, `f(x + x)`, `g(y)`; output 0 is `x < y ? f(x + x) : g(y)`, output 1 is `y * y`. -/
def flowGraph : Graph where
  node := fun i => match i with
    | 0 => ⟨.load (.other 5), []⟩
    | 1 => ⟨.load (.other 3), []⟩
    | 2 => ⟨.compare 0, [0, 1]⟩
    | 3 => ⟨.add, [0, 0]⟩
    | 4 => ⟨.callStd 1, [3]⟩
    | 5 => ⟨.callStd 2, [1]⟩
    | 6 => ⟨.cond, [2, 4, 5]⟩
    | 7 => ⟨.save 0, [6]⟩
    | 8 => ⟨.mul, [1, 1]⟩
    | 9 => ⟨.save 1, [8]⟩
    | _ => ⟨.copy, []⟩
  ops := [0, 1, 2, 3, 4, 5, 6, 7, 8, 9]
  next := 10

theorem flowGraph_ok : WF flowGraph ∧ InOrder flowGraph ∧ Convertible flowGraph := by
  have key : ∀ v ∈ flowGraph.ops, NodeWF (flowGraph.node v) := by
    intro v hv
    simp only [flowGraph, List.mem_cons, List.not_mem_nil, or_false] at hv
    rcases hv with rfl | rfl | rfl | rfl | rfl | rfl | rfl | rfl | rfl | rfl <;>
      exact ⟨by intro h; revert h; decide, by intro h; revert h; decide, by simp [flowGraph], by intro l hl; revert hl; simp [flowGraph]⟩
  have hw : WF flowGraph := WF.of (by decide) (by decide) (by decide) key
  refine ⟨hw, ?_, ?_⟩
  · have hr : Ranked flowGraph (fun v => (v : ℚ)) := by
      intro v hv a ha
      have : a < v := by revert v; intro v hv; revert a; revert v; decide
      show (a : ℚ) < (v : ℚ)
      exact_mod_cast this
    refine inOrder_of_pairwise hw.closed hr ?_
    have : flowGraph.ops.Pairwise (· < ·) := by decide
    exact this.imp fun h => by exact_mod_cast h
  · refine ⟨?_, ?_, by decide, ?_⟩
    · intro v hv
      have h2 : v = 7 ∨ v = 9 ∨ ∃ u ∈ flowGraph.ops, v ∈ (flowGraph.node u).args := by revert v; decide
      rcases h2 with rfl | rfl | h2
      · exact .inl ⟨0, rfl⟩
      · exact .inl ⟨1, rfl⟩
      · exact .inr h2
    · intro v hv a ha k
      have h2 : saveKey (flowGraph.node a).op = none := by revert a; revert v; decide
      intro hk
      rw [hk] at h2
      cases h2
    · intro v hv
      simp only [flowGraph, List.mem_cons, List.not_mem_nil, or_false] at hv
      rcases hv with rfl | rfl | rfl | rfl | rfl | rfl | rfl | rfl | rfl | rfl <;> simp [flowGraph]

/-- Output 1 is optional. -/
def flowUsage (k : Nat) : Usage := if k = 1 then .optional else .output

/-- Five and three for the arguments, and the functions add one and two. Optional outputs are not wanted. -/
def flowInterp : Interp Int where
  f := fun op l => match op, l with
    | .add, l => l.sum
    | .mul, l => l.prod
    | .neg, [x] => -x
    | .copy, [x] => x
    | .load (.int n), _ => n
    | .load (.other k), _ => k
    | .cast _, [x] => x
    | .compare _, [x, y] => if x < y then 1 else 0
    | .callStd k, [x] => x + k
    | .cond, [c, a, b] => if c = 1 then a else b
    | _, _ => 0
  add := fun _ => rfl
  mul := fun _ => rfl
  neg := fun _ => rfl
  copy := fun _ => rfl
  int := fun n => by simp
  cast := fun _ n => by simp

theorem flowInterp_selects : Selects flowInterp (fun x => x = 1) := by intro c a b; simp [flowInterp]

/-- The blocks: the question for output 1, its computation, the condition, the two arms, and the end. Five is not less than three, so `g(y)` is
computed (operation 5) and `f(x + x)` (3, 4) is not, and neither is `y * y` (8). -/
example : (convert flowGraph flowUsage true).map (fun p => (p.2, (List.range p.1.blocks).map fun b => (b, p.1.ops b, p.1.desc b))) =
      .ok (5, [(0, [6, 7], []), (1, [3, 4], [0]), (2, [5], [0]), (3, [0, 2, 12], [1, 2]), (4, [8, 9], [3]), (5, [1, 13, 14], [4, 3])]) ∧
    (match convert flowGraph flowUsage true with
      | .ok (s, b) => (exec flowInterp (fun x => x = 1) s s.blocks none b .start).map (fun m => (m.done, m.env 6))
      | .error _ => none) = some ([1, 13, 14, 0, 2, 12, 5, 6, 7], some 5) := by decide +kernel

/-- `x + x` is needed only if the condition is true. -/
example : OnlyFor flowGraph (fun u j => u = 6 ∧ j = 1) 3 := by
  refine .intro 3 (by decide) (by simp [flowGraph]) fun u hu j hj hn => ?_
  have h4 : u = 4 := by
    have : 3 ∈ (flowGraph.node u).args := List.mem_of_getElem? hj
    clear hj; clear hn
    revert u; decide
  subst h4
  refine .intro 4 (by decide) (by simp [flowGraph]) fun u hu j hj hn => ?_
  have h6 : u = 6 := by
    have : 4 ∈ (flowGraph.node u).args := List.mem_of_getElem? hj
    clear hj; clear hn
    revert u; decide
  subst h6
  exfalso
  refine hn ⟨rfl, ?_⟩
  match j, hj with
  | 0, hj => simp [flowGraph] at hj
  | 1, _ => rfl
  | 2, hj => simp [flowGraph] at hj
  | j + 3, hj => simp [flowGraph] at hj

example : OnlyFor flowGraph (fun u _ => u = 9) 8 := by
  refine .intro 8 (by decide) (by simp [flowGraph]) fun u hu j hj hn => ?_
  have h9 : u = 9 := by
    have : 8 ∈ (flowGraph.node u).args := List.mem_of_getElem? hj
    clear hj; clear hn
    revert u; decide
  exact absurd h9 hn

end Wf.Gen
