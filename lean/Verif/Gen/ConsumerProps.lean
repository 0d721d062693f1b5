import Verif.Gen.ConsumerLemmas

/-!
# C43, C44: consumers
-/

namespace Wf.Gen

/-! ## C44 -/

/-- Specification: the states a history of insertions and removals reaches, together with the map from handles to live values
that the history describes. -/
inductive SlotHistory : Slots → (Nat → Option Nat) → Prop
  | start : SlotHistory Slots.empty (fun _ => none)
  | insert {s m} (v : Nat) : SlotHistory s m → SlotHistory (s.insert v).1 (fun j => if j = (s.insert v).2 then some v else m j)
  | remove {s s' m} (i : Nat) : SlotHistory s m → s.remove i = .ok s' → SlotHistory s' (fun j => if j = i then none else m j)

theorem SlotHistory.wf {s : Slots} {m : Nat → Option Nat} (h : SlotHistory s m) : s.WF ∧ ∀ i, s.get i = m i := by
  induction h with
  | start => exact ⟨Slots.WF.empty, Slots.get_empty⟩
  | @insert s m v _ ih =>
    obtain ⟨h1, _, h3⟩ := s.insert_spec ih.1 v
    refine ⟨h1, fun j => ?_⟩
    rw [h3, ih.2]
  | @remove s s' m i _ e ih =>
    cases hg : s.get i with
    | none => rw [(s.remove_spec ih.1 i).2 hg] at e; cases e
    | some u =>
      obtain ⟨s'', e', h1, h2⟩ := (s.remove_spec ih.1 i).1 u hg
      rw [e'] at e; cases e
      exact ⟨h1, fun j => by rw [h2, ih.2]⟩

/-- C44: after every history the handles of the live consumers hold exactly what was inserted under them. -/
theorem C44_handles_are_stable {s : Slots} {m : Nat → Option Nat} (h : SlotHistory s m) (i u : Nat) : s.cells[i]? = some (some u) ↔ m i = some u := by
  rw [← h.wf.2 i]
  unfold Slots.get
  cases s.cells[i]? with
  | none => simp
  | some o => cases o <;> simp

/-- C44: an insertion never returns a handle in use, a live handle can be removed, and any other handle is refused. -/
theorem C44_insert_remove {s : Slots} {m : Nat → Option Nat} (h : SlotHistory s m) :
    (∀ v, m (s.insert v).2 = none) ∧ (∀ i, m i ≠ none → ∃ s', s.remove i = .ok s') ∧ ∀ i, m i = none → s.remove i = .error .assertion := by
  obtain ⟨hw, hg⟩ := h.wf
  refine ⟨fun v => ?_, fun i hi => ?_, fun i hi => ?_⟩
  · rw [← hg]; exact (s.insert_spec hw v).2.1
  · obtain ⟨u, hu⟩ := Option.ne_none_iff_exists'.mp hi
    obtain ⟨s', e, _⟩ := (s.remove_spec hw i).1 u (by rw [hg]; exact hu)
    exact ⟨s', e⟩
  · exact (s.remove_spec hw i).2 (by rw [hg]; exact hi)

/-- C44: iteration visits exactly the live consumers, in the order of their handles, each as often as it is stored, and the size is their number. -/
theorem C44_iteration_and_size {s : Slots} {m : Nat → Option Nat} (h : SlotHistory s m) :
    ∃ live : List Nat, live.Pairwise (· < ·) ∧ (∀ i, i ∈ live ↔ m i ≠ none) ∧ s.iterate.map some = live.map m ∧ s.size = live.length := by
  obtain ⟨hw, hg⟩ := h.wf
  have hmg : m = s.get := funext fun i => (hg i).symm
  refine ⟨(List.range s.cells.length).filter fun i => (s.get i).isSome, List.pairwise_lt_range.filter _, ?_, ?_, ?_⟩
  · intro i
    rw [List.mem_filter, List.mem_range, hmg]
    constructor
    · rintro ⟨_, h2⟩ h3; rw [h3] at h2; cases h2
    · intro h2
      refine ⟨?_, Option.isSome_iff_ne_none.mpr h2⟩
      rcases Nat.lt_or_ge i s.cells.length with h' | h'
      · exact h'
      · exact absurd (by unfold Slots.get; rw [List.getElem?_eq_none_iff.mpr h']; rfl) h2
  · rw [hmg, Slots.iterate_eq]
    induction List.range s.cells.length with
    | nil => rfl
    | cons a l ih =>
      cases ha : s.get a with
      | none => rw [List.filterMap_cons_none ha, List.filter_cons_of_neg (by simp [ha])]; exact ih
      | some v => rw [List.filterMap_cons_some ha, List.filter_cons_of_pos (by simp [ha]), List.map_cons, List.map_cons, ih, ha]
  · rw [Slots.size_eq s hw, Slots.iterate_eq]
    induction List.range s.cells.length with
    | nil => rfl
    | cons a l ih =>
      cases ha : s.get a with
      | none => rw [List.filterMap_cons_none ha, List.filter_cons_of_neg (by simp [ha])]; exact ih
      | some v => rw [List.filterMap_cons_some ha, List.filter_cons_of_pos (by simp [ha]), List.length_cons, List.length_cons, ih]

/-- Slot 0 is freed and used again. -/
example : SlotHistory ⟨[some 9, some 8], []⟩ (fun j => if j = 0 then some 9 else if j = 0 then none else if j = 1 then some 8 else if j = 0 then some 7 else none) :=
  .insert (s := ⟨[none, some 8], [0]⟩) 9 (.remove (s := ⟨[some 7, some 8], []⟩) 0 (.insert (s := ⟨[some 7], []⟩) 8 (.insert (s := Slots.empty) 7 .start)) rfl)

/-! ## C43 -/

/-- C43: after every history of edits each value lists another as operand exactly as often as the other lists it as consumer. -/
theorem C43_mirror (es : List Edit) (g : Values) (h : Values.none.history es = .ok g) (a u : Nat) :
    ((g.operands u).map (·.1)).count a = (g.consumers a).iterate.count u ∧ (g.consumers a).size = (g.consumers a).iterate.length := by
  have hi := Values.history_inv es Values.Inv.none h
  exact ⟨hi.mirror.counts a u, Slots.size_eq _ (hi.mirror.wf a)⟩

/-- C43: after every history, an edit of existing values fails only when a value is replaced by itself or removed while it is used;
otherwise it succeeds and changes the operands in the way `Edit.onNodes` says. -/
theorem C43_edits (es : List Edit) (g : Values) (h : Values.none.history es = .ok g) (e : Edit) (hv : ∀ v ∈ e.names, v < g.next) :
    (e.Refused g.nodeOf → g.apply e = .error .assertion) ∧
    (¬ e.Refused g.nodeOf → ∃ g', g.apply e = .ok g' ∧ g'.next = e.nextOf g.next ∧ g'.nodeOf = e.onNodes g.next g.nodeOf) := by
  obtain ⟨h1, h2⟩ := Values.apply_inv (Values.history_inv es Values.Inv.none h) hv
  exact ⟨h1, fun hr => by obtain ⟨g', k1, _, k2, k3⟩ := h2 hr; exact ⟨g', k1, k2, k3⟩⟩

/-- C43: the graph the optimisation passes are modelled on (`GraphModel.lean`, where consumers are found by searching the operands) is what these
values look like: the consumers a pass iterates over are exactly the values that have the operand. -/
theorem C43_consumers (es : List Edit) (g : Values) (h : Values.none.history es = .ok g) (a u : Nat) :
    u ∈ (g.consumers a).iterate ↔ a ∈ (g.nodeOf u).args := by
  have hi := Values.history_inv es Values.Inv.none h
  rw [Slots.mem_iterate, mem_args_iff]
  exact ⟨fun ⟨i, h⟩ => ⟨i, (hi.mirror.iff a i u).mp h⟩, fun ⟨i, h⟩ => ⟨i, (hi.mirror.iff a i u).mpr h⟩⟩

/-- `0`, `1` inputs, `2 = 0 + 1 + 0 + 1`, `3 = 0 * 2`; the pair (0, 1) is replaced by the new value `4` in `2`, and then `0` by `1` everywhere. -/
def editExample : List Edit :=
  [.create (.load (.other 0)) [], .create (.load (.other 1)) [], .create .add [0, 1, 0, 1], .create .mul [0, 2], .create .add [0, 1],
   .replacePair 2 0 1 4, .replaceWith 0 1, .setOperation 3 .add [2, 2, 4]]

/-- Operands of 2, 4 and 3 and consumers of 4 and 1 after a history. -/
def editView (r : Res Values) : Option (List (List Nat)) :=
  match r with
  | .ok g => some [(g.nodeOf 2).args, (g.nodeOf 4).args, (g.nodeOf 3).args, (g.consumers 4).iterate, (g.consumers 1).iterate]
  | .error _ => none

example : editView (Values.none.history editExample) = some [[4, 4], [1, 1], [2, 2, 4], [2, 2, 3], [4, 4]] := by decide +kernel

end Wf.Gen
