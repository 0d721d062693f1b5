/-!
# Model of `components/runtime/wrenfold/span.h`

A span is a base position in a buffer, a list of dimensions and a list of strides of the same length (the two value packs;
whether an entry is `constant<>` or `dynamic` makes no difference to its value, `span_detail.h:10-45`). Positions are exact integers:
`std::ptrdiff_t` overflow is not modelled.
-/

namespace Wf.Run

/-- `class span`, `span.h:65-101,265-269`. -/
structure Span where
  base : Int
  dims : List Nat
  strides : List Nat
deriving Repr, DecidableEq

/-- `compute_index_internal`, `span.h:236-246`: `stride<Dim>() * i + …`, with the last axis as end of the recursion. -/
def computeIndex : List Nat → List Int → Int
  | [], _ => 0
  | _, [] => 0
  | [s], [i] => (s : Int) * i
  | s :: ss, i :: is => (s : Int) * i + computeIndex ss is

/-- `operator()`, `span.h:157-160`: the position of the element read or written. -/
def Span.at (s : Span) (idx : List Int) : Int := s.base + computeIndex s.strides idx

/-- `block`, `span.h:221-227`. -/
def Span.block (s : Span) (offsets : List Nat) (dims : List Nat) : Span :=
  ⟨s.base + computeIndex s.strides (offsets.map Int.ofNat), dims, s.strides⟩

/-- `make_span` with the strides of a dense row-major buffer (the converter example in `span.h:28-31`; Eigen row-major types through
`eigen_row_stride`/`eigen_col_stride`, `span.h:529-549`): the stride of an axis is the product of the later dimensions. -/
def rowMajor : List Nat → List Nat
  | [] => []
  | _ :: ds => ds.foldr (· * ·) 1 :: rowMajor ds

/-- Strides of a dense column-major buffer (Eigen's default): the product of the earlier dimensions. -/
def colMajorFrom (acc : Nat) : List Nat → List Nat
  | [] => []
  | d :: ds => acc :: colMajorFrom (acc * d) ds

def colMajor (dims : List Nat) : List Nat := colMajorFrom 1 dims

/-- Strides of an Eigen matrix, `eigen_row_stride` and `eigen_col_stride`, `span.h:529-549`. -/
def eigenStrides (rowMajorStorage : Bool) (outer inner : Nat) : List Nat :=
  [if rowMajorStorage then outer else inner, if rowMajorStorage then inner else outer]

/-- `make_array_span`, `span.h:331-335,347-351`. -/
def arraySpan (base : Int) (n : Nat) : Span := ⟨base, [n], [1]⟩

end Wf.Run
