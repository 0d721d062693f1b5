/-!
# Model of `utility/stack_allocator.h`

Addresses are natural numbers below `2^64`; `std::size_t` arithmetic wraps. `p_` and `data_` are addresses. Going past one past
the end of `data_` in `p_ + n_aligned` (line 48) is formally undefined pointer arithmetic; the model gives it the usual meaning,
addition modulo `2^64`.
-/

namespace Wf.Run

def word : Nat := 2 ^ 64

/-- `round_to_alignment`, `utility/stack_allocator.h:21-27`. -/
def roundToAlignment (alignment n : Nat) : Nat :=
  let remainder := n % alignment
  if remainder ≠ 0 then (n + (alignment - remainder)) % word else n

/-- `class stack_allocator`, `utility/stack_allocator.h:34-35,96-98`. -/
structure StackAlloc where
  capacity : Nat
  alignment : Nat
  data : Nat
  p : Nat
deriving Repr, DecidableEq

/-- Constructor, `utility/stack_allocator.h:40`. -/
def StackAlloc.new (capacity alignment data : Nat) : StackAlloc := ⟨capacity, alignment, data, data⟩

/-- `allocate`, `utility/stack_allocator.h:43-55`. -/
def StackAlloc.allocate (s : StackAlloc) (n : Nat) : Option Nat × StackAlloc :=
  if n = 0 then (none, s)
  else
    let nAligned := roundToAlignment s.alignment n
    if (s.p + nAligned) % word > s.data + s.capacity then (none, s)
    else (some s.p, { s with p := s.p + nAligned })

/-- `deallocate`, `utility/stack_allocator.h:59-64`. -/
def StackAlloc.deallocate (s : StackAlloc) (ptr n : Nat) : StackAlloc :=
  if (ptr + roundToAlignment s.alignment n) % word = s.p then { s with p := ptr } else s

/-- `owns`, `utility/stack_allocator.h:67-69`. -/
def StackAlloc.owns (s : StackAlloc) (ptr : Nat) : Bool := ptr ≥ s.data && ptr < s.data + s.capacity

/-- `is_empty`, `utility/stack_allocator.h:76`. -/
def StackAlloc.isEmpty (s : StackAlloc) : Bool := s.p = s.data

/-- `used_bytes`, `utility/stack_allocator.h:79-82`. -/
def StackAlloc.usedBytes (s : StackAlloc) : Nat := s.p - s.data

/-! ## The pair with the fallback allocator (`utility/stack_allocator.h:104-160`)

The fallback (`std::allocator`) is a stream of addresses outside the arena; the model records which allocator an address came from. -/

inductive Origin
  | stack (ptr : Nat)
  | fallback
deriving Repr, DecidableEq

/-- `stl_stack_allocator_with_fallback::allocate`, lines 130-135, for objects of `size` bytes. -/
def allocateWithFallback (s : StackAlloc) (size n : Nat) : Origin × StackAlloc :=
  match s.allocate (size * n % word) with
  | (some ptr, s') => (.stack ptr, s')
  | (none, s') => (.fallback, s')

end Wf.Run
