/-!
# Model of `utility/bitset_range.h`

A `std::bitset<N>` is a list of `N` Booleans, position 0 first.
-/

namespace Wf.Run

/-- `const_iterator::advance`, `utility/bitset_range.h:57-61`: `for (; pos_ < b_.size() && !b_[pos_]; ++pos_)`. -/
def advance (b : List Bool) (pos : Nat) : Nat :=
  if h : pos < b.length then
    if b[pos] then pos else advance b (pos + 1)
  else pos
termination_by b.length - pos

theorem le_advance (b : List Bool) (pos : Nat) : pos ≤ advance b pos := by
  unfold advance
  split
  · split
    · exact Nat.le_refl _
    · have := le_advance b (pos + 1); omega
  · exact Nat.le_refl _
termination_by b.length - pos

/-- `operator++()`, `utility/bitset_range.h:37-41`. -/
def preIncrement (b : List Bool) (pos : Nat) : Nat := advance b (pos + 1)

/-- `operator++(int)`, `utility/bitset_range.h:43-47`: the new position (the returned copy is the old one). -/
def postIncrement (pos : Nat) : Nat := pos + 1

/-- `begin`, `utility/bitset_range.h:52-54,68`. -/
def rangeBegin (b : List Bool) : Nat := advance b 0

/-- `end`, `utility/bitset_range.h:52-54,69`. -/
def rangeEnd (b : List Bool) : Nat := advance b b.length

/-- The range-based loop `for (pos : bitset_range(b))`, from position `pos`. -/
def iterateFrom (b : List Bool) (pos : Nat) : List Nat :=
  if pos < b.length then pos :: iterateFrom b (preIncrement b pos) else []
termination_by b.length - pos
decreasing_by
  have := le_advance b (pos + 1)
  simp only [preIncrement]
  omega

def iterate (b : List Bool) : List Nat := iterateFrom b (rangeBegin b)

end Wf.Run
