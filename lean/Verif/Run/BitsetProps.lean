import Verif.Run.BitsetModel
import Mathlib.Data.List.Sort
import Mathlib.Data.List.Range

/-! # C48: iteration over the set bits -/

namespace Wf.Run

theorem advance_le (b : List Bool) (pos : Nat) (h : pos ≤ b.length) : advance b pos ≤ b.length := by
  unfold advance
  split
  · split
    · omega
    · exact advance_le b (pos + 1) (by omega)
  · exact h
termination_by b.length - pos

theorem advance_spec (b : List Bool) (pos : Nat) :
    (∀ k, pos ≤ k → k < advance b pos → b[k]? = some false) ∧ (advance b pos < b.length → b[advance b pos]? = some true) := by
  unfold advance
  split
  · rename_i h
    split
    · rename_i ht
      refine ⟨fun k h1 h2 => by omega, fun _ => by rw [List.getElem?_eq_getElem h, ht]⟩
    · rename_i hf
      obtain ⟨h1, h2⟩ := advance_spec b (pos + 1)
      refine ⟨fun k hk1 hk2 => ?_, h2⟩
      rcases Nat.eq_or_lt_of_le hk1 with rfl | hlt
      · rw [List.getElem?_eq_getElem h]; simpa using hf
      · exact h1 k hlt hk2
  · exact ⟨fun k h1 h2 => by omega, fun h => by omega⟩
termination_by b.length - pos

theorem iterateFrom_mem (b : List Bool) (pos : Nat) (hp : pos < b.length → b[pos]? = some true) (k : Nat) :
    k ∈ iterateFrom b pos ↔ pos ≤ k ∧ b[k]? = some true := by
  unfold iterateFrom
  split
  · rename_i h
    have hadv := advance_spec b (pos + 1)
    have hle := le_advance b (pos + 1)
    have ih := iterateFrom_mem b (preIncrement b pos) (fun h => hadv.2 h) k
    rw [List.mem_cons, ih]
    unfold preIncrement
    constructor
    · rintro (rfl | ⟨h1, h2⟩)
      · exact ⟨Nat.le_refl _, hp h⟩
      · exact ⟨by omega, h2⟩
    · rintro ⟨h1, h2⟩
      rcases Nat.eq_or_lt_of_le h1 with rfl | hlt
      · exact Or.inl rfl
      · right
        refine ⟨?_, h2⟩
        by_contra hc
        have := hadv.1 k hlt (by omega)
        rw [this] at h2
        simp at h2
  · rename_i h
    simp only [List.not_mem_nil, false_iff, not_and]
    intro h1 h2
    have := (List.getElem?_eq_some_iff.mp h2).1
    omega
termination_by b.length - pos
decreasing_by
  have := le_advance b (pos + 1)
  simp only [preIncrement]
  omega

theorem iterateFrom_sorted (b : List Bool) (pos : Nat) (hp : pos < b.length → b[pos]? = some true) :
    (iterateFrom b pos).Pairwise (· < ·) := by
  unfold iterateFrom
  split
  · rename_i h
    have hadv := advance_spec b (pos + 1)
    have hle := le_advance b (pos + 1)
    refine List.pairwise_cons.mpr ⟨?_, iterateFrom_sorted b _ (fun h => hadv.2 h)⟩
    intro k hk
    have := (iterateFrom_mem b _ (fun h => hadv.2 h) k).mp hk
    unfold preIncrement at this
    omega
  · exact List.Pairwise.nil
termination_by b.length - pos
decreasing_by
  have := le_advance b (pos + 1)
  simp only [preIncrement]
  omega

/-- The loop visits exactly the positions of the set bits, in strictly increasing order (so each once). -/
theorem C48_visits_set_bits (b : List Bool) :
    (∀ k, k ∈ iterate b ↔ b[k]? = some true) ∧ (iterate b).Pairwise (· < ·) := by
  have h := advance_spec b 0
  refine ⟨fun k => ?_, iterateFrom_sorted b _ h.2⟩
  rw [iterate, rangeBegin, iterateFrom_mem b _ h.2]
  constructor
  · exact fun h => h.2
  · intro hk
    refine ⟨?_, hk⟩
    by_contra hc
    rw [h.1 k (Nat.zero_le _) (by omega)] at hk
    simp at hk

/-- Stated as one equation: the visited positions are the filtered range. -/
theorem C48_iterate_eq_filter (b : List Bool) : iterate b = (List.range b.length).filter (fun k => b[k]? = some true) := by
  obtain ⟨h1, h2⟩ := C48_visits_set_bits b
  apply List.Perm.eq_of_pairwise (le := (· < ·))
  · intro a b _ _ h1 h2; omega
  · exact h2
  · exact (List.pairwise_lt_range).filter _
  · apply (List.perm_ext_iff_of_nodup (h2.imp (fun h => Nat.ne_of_lt h)) ((List.nodup_range).filter _)).mpr
    intro k
    rw [h1, List.mem_filter, List.mem_range]
    simp only [decide_eq_true_eq]
    exact ⟨fun h => ⟨(List.getElem?_eq_some_iff.mp h).1, h⟩, fun h => h.2⟩

/-- The loop ends at `end()`: the end position is the size, and increments never pass it. -/
theorem C48_terminates_at_end (b : List Bool) (pos : Nat) (h : pos < b.length) :
    rangeEnd b = b.length ∧ preIncrement b pos ≤ rangeEnd b := by
  have : rangeEnd b = b.length := by unfold rangeEnd advance; simp
  exact ⟨this, by rw [this]; exact advance_le b _ (by omega)⟩

/-- Disagreement: the postfix increment does not skip to the next set bit. -/
theorem C48_postfix_stops_on_clear_bit :
    ∃ b : List Bool, b[rangeBegin b]? = some true ∧ postIncrement (rangeBegin b) < b.length ∧
      b[postIncrement (rangeBegin b)]? = some false :=
  ⟨[true, false, true], by
    have h : rangeBegin [true, false, true] = 0 := by unfold rangeBegin advance; simp
    rw [h]; decide⟩

/-! Non-vacuity -/
example : iterate [false, true, true, false, true] = [1, 2, 4] := by rw [C48_iterate_eq_filter]; decide

end Wf.Run
