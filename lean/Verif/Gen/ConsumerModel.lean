import Verif.Gen.GraphModel

/-!
# Model of `ir_consumer_vector.h` and of the operand/consumer bookkeeping in `ir_value.{h,cc}`

A value is identified by its name. `uint32_t` casts of slot numbers are not modelled (a value never has 2^32 consumers).
-/

namespace Wf.Gen

/-! ## `consumer_vector` -/

/-- `consumer_vector`, `ir_consumer_vector.h:26-119`: slots (empty ones are null pointers) and the free list, most recently freed first. -/
structure Slots where
  cells : List (Option Nat)
  free : List Nat
deriving DecidableEq, Repr

def Slots.empty : Slots := ⟨[], []⟩

/-- `insert`, `ir_consumer_vector.h:81-92`: the index returned is the handle. -/
def Slots.insert (s : Slots) (v : Nat) : Slots × Nat :=
  match s.free with
  | [] => (⟨s.cells ++ [some v], []⟩, s.cells.length)
  | i :: free => (⟨s.cells.set i (some v), free⟩, i)

/-- `remove`, `ir_consumer_vector.h:95-100`. -/
def Slots.remove (s : Slots) (i : Nat) : Res Slots :=
  match s.cells[i]? with
  | some (some _) => .ok ⟨s.cells.set i none, i :: s.free⟩
  | _ => .error .assertion

/-- `size`, `ir_consumer_vector.h:106`. -/
def Slots.size (s : Slots) : Nat := s.cells.length - s.free.length

/-- `advance_to_next`, `ir_consumer_vector.h:69-72`: the iterator is the remaining part of the slots. -/
def advanceToNext : List (Option Nat) → List (Option Nat)
  | none :: l => advanceToNext l
  | l => l

theorem advanceToNext_length (l : List (Option Nat)) : (advanceToNext l).length ≤ l.length := by
  induction l with
  | nil => simp [advanceToNext]
  | cons a l ih => cases a <;> simp [advanceToNext] <;> omega

/-- A range-based loop: `begin` advances to the first occupied slot, `++` moves one further and advances again; `ir_consumer_vector.h:46-50, 108-109`. -/
def iterateSlots (l : List (Option Nat)) : List Nat :=
  match h : advanceToNext l with
  | [] => []
  | none :: rest => iterateSlots rest
  | some v :: rest => v :: iterateSlots rest
termination_by l.length
decreasing_by all_goals (have := advanceToNext_length l; rw [h] at this; simp at this; omega)

def Slots.iterate (s : Slots) : List Nat := iterateSlots s.cells

/-! ## Values -/

/-- The operation, the operands (`operand_ptr`: value and consumer index, `ir_value.h:22-58`) and the consumers of every value. -/
structure Values where
  op : Nat → Op
  operands : Nat → List (Nat × Nat)
  consumers : Nat → Slots
  next : Nat

/-- Function update. -/
def upd {α : Type} (f : Nat → α) (i : Nat) (x : α) : Nat → α := fun j => if j = i then x else f j

/-- `add_consumer`, `ir_value.cc:42-44`: the handle is the pair of the value and the slot. -/
def addConsumer (c : Nat → Slots) (a u : Nat) : (Nat → Slots) × (Nat × Nat) := (upd c a ((c a).insert u).1, (a, ((c a).insert u).2))

/-- `create_operands`, `ir_value.h:218-229`. -/
def createOperands (c : Nat → Slots) (u : Nat) : List Nat → (Nat → Slots) × List (Nat × Nat)
  | [] => (c, [])
  | a :: as => ((createOperands (addConsumer c a u).1 u as).1, (addConsumer c a u).2 :: (createOperands (addConsumer c a u).1 u as).2)

/-- `operand.remove_operand()` for each operand, `ir_value.h:275`, `ir_value.cc:47`. -/
def removeOperands (c : Nat → Slots) : List (Nat × Nat) → Res (Nat → Slots)
  | [] => .ok c
  | (a, i) :: rest =>
    match (c a).remove i with
    | .ok s => removeOperands (upd c a s) rest
    | .error e => .error e

/-- `maybe_sort_operands`, `sort_operands`, `ir_value.h:251-254`, `ir_value.cc:129-134`. `std::sort` may order equal names in any way; only the
slot numbers of equal operands depend on it. -/
def sortOperands (op : Op) (l : List (Nat × Nat)) : List (Nat × Nat) := if op.commutative then l.insertionSort (fun x y => x.1 ≤ y.1) else l

/-- The constructor, `ir_value.h:68-79` (the check of the operand count is not modelled). -/
def Values.create (g : Values) (op : Op) (args : List Nat) : Values × Nat :=
  ({ op := upd g.op g.next op, operands := upd g.operands g.next (sortOperands op (createOperands g.consumers g.next args).2),
     consumers := (createOperands g.consumers g.next args).1, next := g.next + 1 }, g.next)

/-- `set_operation`, `ir_value.h:118-128`. -/
def Values.setOperation (g : Values) (v : Nat) (op : Op) (args : List Nat) : Res Values :=
  match removeOperands g.consumers (g.operands v) with
  | .error e => .error e
  | .ok c => .ok { g with op := upd g.op v op, operands := upd g.operands v (sortOperands op (createOperands c v args).2), consumers := (createOperands c v args).1 }

/-- The loop of `replace_operand`, `ir_value.cc:20-30`. -/
def replaceLoop (old new u : Nat) (c : Nat → Slots) : List (Nat × Nat) → (Nat → Slots) × List (Nat × Nat)
  | [] => (c, [])
  | (a, i) :: rest =>
    if a = old then ((replaceLoop old new u (addConsumer c new u).1 rest).1, (addConsumer c new u).2 :: (replaceLoop old new u (addConsumer c new u).1 rest).2)
    else ((replaceLoop old new u c rest).1, (a, i) :: (replaceLoop old new u c rest).2)

/-- `replace_operand`, `ir_value.cc:20-30`. -/
def Values.replaceOperand (g : Values) (u old new : Nat) : Values :=
  { g with consumers := (replaceLoop old new u g.consumers (g.operands u)).1,
           operands := upd g.operands u (sortOperands (g.op u) (replaceLoop old new u g.consumers (g.operands u)).2) }

/-- `replace_with`, `ir_value.cc:98-104`. The loop runs over the consumers of `v`, which it does not change. -/
def Values.replaceWith (g : Values) (v w : Nat) : Res Values :=
  if v = w then .error .assertion
  else
    let g' := (g.consumers v).iterate.foldl (fun g u => g.replaceOperand u v w) g
    .ok { g' with consumers := upd g'.consumers v Slots.empty }

/-- `remove`, `ir_value.cc:106-115`. -/
def Values.remove (g : Values) (v : Nat) : Res Values :=
  if (g.consumers v).size ≠ 0 then .error .assertion
  else match removeOperands g.consumers (g.operands v) with
    | .error e => .error e
    | .ok c => .ok { g with operands := upd g.operands v [], consumers := c }

/-- `remove_if` with `remove_specific_number_of_times`, `ir_value.cc:60-72`. -/
def dropOperand (x : Nat) : Nat → (Nat → Slots) → List (Nat × Nat) → Res ((Nat → Slots) × List (Nat × Nat))
  | _, c, [] => .ok (c, [])
  | n, c, (a, i) :: rest =>
    if a = x ∧ n > 0 then
      match (c a).remove i with
      | .ok s => dropOperand x (n - 1) (upd c a s) rest
      | .error e => .error e
    else
      match dropOperand x n c rest with
      | .ok (c', l) => .ok (c', (a, i) :: l)
      | .error e => .error e

/-- `replace_operand_pair`, `ir_value.cc:48-83`. -/
def Values.replaceOperandPair (g : Values) (u a b new : Nat) : Res (Values × Nat) :=
  let names := (g.operands u).map (·.1)
  let times := if a = b then names.count a / 2 else min (names.count a) (names.count b)
  match dropOperand a times g.consumers (g.operands u) with
  | .error e => .error e
  | .ok (c1, l1) =>
    match dropOperand b times c1 l1 with
    | .error e => .error e
    | .ok (c2, l2) =>
      let r := createOperands c2 u (List.replicate times new)
      .ok ({ g with operands := upd g.operands u (sortOperands (g.op u) (l2 ++ r.2)), consumers := r.1 }, times)

/-- The operations a history is made of. -/
inductive Edit
  | create (op : Op) (args : List Nat)
  | setOperation (v : Nat) (op : Op) (args : List Nat)
  | replaceWith (v w : Nat)
  | remove (v : Nat)
  | replacePair (u a b new : Nat)

/-- The values an edit refers to. -/
def Edit.names : Edit → List Nat
  | .create _ args => args
  | .setOperation v _ args => v :: args
  | .replaceWith v w => [v, w]
  | .remove v => [v]
  | .replacePair u a b new => [u, a, b, new]

def Values.applyUnchecked (g : Values) : Edit → Res Values
  | .create op args => .ok (g.create op args).1
  | .setOperation v op args => g.setOperation v op args
  | .replaceWith v w => g.replaceWith v w
  | .remove v => g.remove v
  | .replacePair u a b new => match g.replaceOperandPair u a b new with
    | .ok (g', _) => .ok g'
    | .error e => .error e

/-- An edit through a pointer to a value that was never created is undefined. -/
def Values.apply (g : Values) (e : Edit) : Res Values := if ∀ v ∈ e.names, v < g.next then g.applyUnchecked e else .error .ub

/-- A sequence of edits; an assertion stops it. -/
def Values.history (g : Values) : List Edit → Res Values
  | [] => .ok g
  | e :: es => match g.apply e with
    | .ok g' => g'.history es
    | .error x => .error x

/-- No values. -/
def Values.none : Values := ⟨fun _ => .copy, fun _ => [], fun _ => Slots.empty, 0⟩

end Wf.Gen
