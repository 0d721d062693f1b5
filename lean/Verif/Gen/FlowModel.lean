import Verif.Gen.GraphModel
import Mathlib.Data.List.Dedup

/-!
# Model of the conversion of conditionals to control flow: `ir_control_flow_converter.{h,cc}`, with `ir_block.{h,cc}`

The state holds the values (as in `GraphModel.lean`), the blocks with their operations and edges, the block every value is in and the set of
visited values. Consumers are computed from the operands (C43). Differences from the text of the code:

* Operations collected by a loop and then inserted at the front of a block in reverse are inserted at the front one by one.
* The cache `is_dominated_by_` is left out. A block is the output block of at most one call of `process_non_conditionals` with a queue that is
  not empty, no edge changes during that call, and cache entries are only read for the current output block, so no stale entry is read.
* Loops and recursive calls have a bound on the number of turns, which the theorems show to be large enough.
-/

namespace Wf.Gen

/-- `expression_usage`, `expression_group.h:12-19`. -/
inductive Usage
  | returnValue | output | optional
deriving DecidableEq, Repr

/-- Overwrite one value of a function. -/
def updateAt {α : Type} (f : Nat → α) (i : Nat) (x : α) : Nat → α := fun j => if j = i then x else f j

/-- `ir_control_flow_converter`, `ir_control_flow_converter.h:21-67`. `parent` is `none` for values in the input block. -/
structure Conv where
  node : Nat → Node
  live : List Nat
  next : Nat
  parent : Nat → Option Nat
  visited : Nat → Bool
  ops : Nat → List Nat
  anc : Nat → List Nat
  desc : Nat → List Nat
  blocks : Nat

namespace Conv

/-- `WF_ASSERT`. -/
def check (b : Bool) : Res Unit := if b then .ok () else .error .assertion

/-- `create_block`, `ir_control_flow_converter.cc:367-371`. The new block has the name `blocks`. -/
def newBlock (s : Conv) : Conv :=
  { s with blocks := s.blocks + 1, ops := updateAt s.ops s.blocks [], anc := updateAt s.anc s.blocks [], desc := updateAt s.desc s.blocks [] }

/-- `create_operation`, `ir_block.h:112-125`. The new value has the name `next`. -/
def create (s : Conv) (b : Nat) (op : Op) (args : List Nat) : Conv :=
  { s with node := updateAt s.node s.next (mkNode op args), live := s.live ++ [s.next], next := s.next + 1, parent := updateAt s.parent s.next (some b),
           ops := updateAt s.ops b (s.ops b ++ [s.next]) }

/-- `visited_.insert`. -/
def visit (s : Conv) (v : Nat) : Conv := { s with visited := updateAt s.visited v true }

/-- `consumers()`, `ir_value.h:140`. -/
def consumers (s : Conv) (v : Nat) : List Nat := s.live.filter fun u => v ∈ (s.node u).args

/-- `all_consumers_visited`, `ir_control_flow_converter.cc:125-127`. -/
def allVisited (s : Conv) (v : Nat) : Bool := (s.consumers v).all s.visited

/-- `queue_operands`, `ir_control_flow_converter.cc:129-136`: the operands to append to the queue. -/
def ready (s : Conv) (v : Nat) : List Nat := (s.node v).args.filter fun a => !s.visited a && s.allVisited a

/-- `add_descendant`, with `add_ancestor`, `ir_block.cc:30-34, 42-47`. -/
def addDescendant (s : Conv) (b d : Nat) : Res Conv :=
  if d ∈ s.desc b ∨ b ∈ s.anc d then .error .assertion
  else .ok { s with desc := updateAt s.desc b (s.desc b ++ [d]), anc := updateAt s.anc d (s.anc d ++ [b]) }

/-- The last operation of a block is `ir::jump_condition`. -/
def endsInJump (s : Conv) (b : Nat) : Bool :=
  match (s.ops b).getLast? with
  | some v => (s.node v).op == .jump
  | none => false

/-- Overwrite the first occurrence. -/
def replaceFirst (old new : Nat) : List Nat → List Nat
  | [] => []
  | x :: xs => if x = old then new :: xs else x :: replaceFirst old new xs

/-- `replace_descendant`, `ir_block.cc:10-28`, with `remove_ancestor`, 36-40. -/
def replaceDescendant (s : Conv) (b target new : Nat) : Res Conv :=
  if target = new ∨ (s.ops b ≠ [] ∧ if s.endsInJump b then (s.desc b).length ≠ 2 else 1 < (s.desc b).length) ∨ b ∉ s.anc target ∨ b ∈ s.anc new ∨
      target ∉ s.desc b then .error .assertion
  else .ok { s with anc := updateAt (updateAt s.anc target ((s.anc target).erase b)) new (s.anc new ++ [b]), desc := updateAt s.desc b (replaceFirst target new (s.desc b)) }

/-- `block_is_dominated_by`, `ir_control_flow_converter.cc:138-155`, with a bound on the length of paths. -/
def dominated (anc : Nat → List Nat) (up : Nat) : Nat → Nat → Bool
  | 0, _ => false
  | n + 1, t => t == up || (!(anc t).isEmpty && (anc t).all (dominated anc up n))

/-- The check of lines 183-187: the block is on all paths to the consumers of the value. -/
def insertable (s : Conv) (v block : Nat) : Bool :=
  (s.consumers v).all fun c => match s.parent c with
    | some b => dominated s.anc block (s.blocks + 1) b
    | none => false

/-- Lines 199-201 and 206: put the value at the front of the block and mark it. -/
def place (s : Conv) (v block : Nat) : Conv :=
  { s with parent := updateAt s.parent v (some block), ops := updateAt s.ops block (v :: s.ops block), visited := updateAt s.visited v true }

/-- The loop of `process_non_conditionals`, `ir_control_flow_converter.cc:157-208`. Gives the values to defer and the conditionals. -/
def drain (convert : Bool) (block : Nat) : Nat → Conv → List Nat → List Nat → List Nat → Res (Conv × List Nat × List Nat)
  | _, s, [], deferred, conds => .ok (s, deferred, conds)
  | 0, _, _ :: _, _, _ => .error .terminate
  | n + 1, s, top :: queue, deferred, conds =>
    if s.visited top then drain convert block n s queue deferred conds
    else if !s.allVisited top then .error .assertion
    else if !s.insertable top block then drain convert block n s queue (deferred ++ [top]) conds
    else if (s.node top).op = .cond ∧ convert = true then drain convert block n s queue deferred (conds ++ [top])
    else drain convert block n (s.place top block) (queue ++ (s.place top block).ready top) deferred conds

/-- A bound for the number of turns of the loop. -/
def turns (s : Conv) (queue : List Nat) : Nat := queue.length + (s.live.map fun v => (s.node v).args.length).sum

/-- The first operand of a value (a conditional has three). -/
def firstOperand (s : Conv) (v : Nat) : Nat := (s.node v).args.headD 0

/-- Lines 214-221: sorted by falling name, without repetitions. -/
def sortedConds (conds : List Nat) : List Nat := (conds.insertionSort (· ≥ ·)).dedup

/-- Lines 223-237: the condition used most often; of several the one with the largest name. -/
def commonCondition (s : Conv) (conds : List Nat) : Nat :=
  let cs := conds.map s.firstOperand
  cs.foldl (fun best c => if cs.count best < cs.count c ∨ (cs.count best = cs.count c ∧ best < c) then c else best) (cs.headD 0)

/-- Lines 278-292 and 296: a conditional becomes a phi function of two copies. The queues of the left and the right side grow. -/
def branch (block left right : Nat) (s : Conv) (v : Nat) : Conv × List Nat × List Nat :=
  let a := (s.node v).args.getD 1 0
  let b := (s.node v).args.getD 2 0
  let s1 := (s.create left .copy [a]).create right .copy [b]
  let s2 := { s1 with node := updateAt s1.node v (mkNode .phi [s.next, s.next + 1]) }
  let s3 := ((s2.place v block).visit s.next).visit (s.next + 1)
  (s3, s3.ready s.next, s3.ready (s.next + 1))

/-- The loop around `branch`. -/
def branches (block left right : Nat) : Conv → List Nat → Conv × List Nat × List Nat
  | s, [] => (s, [], [])
  | s, v :: vs =>
    let p := branch block left right s v
    let q := branches block left right p.1 vs
    (q.1, p.2.1 ++ q.2.1, p.2.2 ++ q.2.2)

/-- Lines 312-318. -/
def redirect (target new : Nat) : Conv → List Nat → Res Conv
  | s, [] => .ok s
  | s, a :: as => do
    check (!(s.ops a).isEmpty && !(s.desc a).isEmpty)
    let s ← s.replaceDescendant a target new
    redirect target new s as

/-- Lines 272-318 of `process`: make the blocks of a branch. Gives the state and the two queues. The
left, right and jump blocks have the names `blocks`, `blocks + 1` and `blocks + 2`. -/
def makeBranch (s : Conv) (block condition : Nat) (grouped : List Nat) : Res (Conv × List Nat × List Nat) := do
  let p := branches block s.blocks (s.blocks + 1) s.newBlock.newBlock grouped
  let previous := p.1.anc block
  let s1 ← p.1.addDescendant s.blocks block
  let s2 ← s1.addDescendant (s.blocks + 1) block
  let s3 := (s2.newBlock.create (s.blocks + 2) .jump [condition]).visit s2.next
  let s4 ← s3.addDescendant (s.blocks + 2) s.blocks
  let s5 ← s4.addDescendant (s.blocks + 2) (s.blocks + 1)
  let s6 ← redirect block (s.blocks + 2) s5 previous
  .ok (s6, p.2.1, p.2.2)

/-- `process`, `ir_control_flow_converter.cc:257-334`. Gives the state, the first block and the deferred values. -/
def process (convert : Bool) : Nat → Conv → List Nat → Nat → List Nat → Res (Conv × Nat × List Nat)
  | 0, _, _, _, _ => .error .terminate
  | n + 1, s, queue, block, deferred => do
    let d ← drain convert block (s.turns queue) s queue deferred []
    if d.2.2 = [] then .ok (d.1, block, d.2.1)
    else
      let conds := sortedConds d.2.2
      let condition := d.1.commonCondition conds
      let b ← d.1.makeBranch block condition (conds.filter fun v => d.1.firstOperand v = condition)
      let l ← process convert n b.1 b.2.1 d.1.blocks []
      let r ← process convert n l.1 b.2.2 (d.1.blocks + 1) l.2.2
      process convert n r.1 ((if r.1.allVisited condition then [condition] else []) ++ r.2.2 ++ conds.filter fun v => d.1.firstOperand v ≠ condition)
        (d.1.blocks + 2) d.2.1

/-- One optional output, `ir_control_flow_converter.cc:69-96`: the new first block. -/
def optionalOutput (convert : Bool) (fuel : Nat) (s : Conv) (nextBlock v key : Nat) : Res (Conv × Nat) := do
  let s1 ← s.newBlock.addDescendant s.blocks nextBlock
  let jump := s.blocks + 1
  let s2 := (s1.newBlock.create jump (.outputRequired key) []).create jump .jump [s1.next]
  let s3 ← s2.addDescendant jump s.blocks
  let s4 ← s3.addDescendant jump nextBlock
  let p ← process convert fuel s4 [v] s.blocks []
  let q ← process convert fuel p.1 p.2.2 jump []
  check q.2.2.isEmpty
  .ok (q.1, q.2.1)

/-- The loop over the optional outputs. -/
def optionalOutputs (convert : Bool) (fuel : Nat) : Conv → Nat → List (Nat × Nat) → Res (Conv × Nat)
  | s, nextBlock, [] => .ok (s, nextBlock)
  | s, nextBlock, (v, key) :: vs => do
    let p ← optionalOutput convert fuel s nextBlock v key
    optionalOutputs convert fuel p.1 p.2 vs

/-- `replace_with` and `remove`, `ir_value.cc:98-115`. -/
def forward (s : Conv) (v x : Nat) : Conv :=
  { s with node := fun u => if u = v then ⟨(s.node v).op, []⟩ else if u ∈ s.live then replaceArg v x (s.node u) else s.node u }

/-- The loop over the operations of a block in `eliminate_useless_copies`, `ir_control_flow_converter.cc:339-353`. -/
def dropCopies (s : Conv) : List Nat → Conv × List Nat
  | [] => (s, [])
  | v :: vs =>
    if (s.node v).op = .copy ∧ s.parent (s.firstOperand v) = s.parent v then dropCopies (s.forward v (s.firstOperand v)) vs
    else
      let p := dropCopies s vs
      (p.1, v :: p.2)

/-- `eliminate_useless_copies` (339-353) for the blocks of a list. -/
def eliminateCopies : Conv → List Nat → Conv
  | s, [] => s
  | s, b :: bs =>
    let p := s.dropCopies (s.ops b)
    eliminateCopies { p.1 with ops := updateAt p.1.ops b p.2 } bs

/-- The key of an output. -/
def saveKey (op : Op) : Option Nat :=
  match op with
  | .save k => some k
  | _ => none

/-- `reverse_copy_save_value_ptrs`, `ir_control_flow_converter.cc:9-20`. -/
def savesOf (s : Conv) (usage : Nat → Usage) (u : Usage) : List Nat :=
  s.live.reverse.filter fun v => match saveKey (s.node v).op with
    | some k => usage k = u
    | none => false

/-- The constructor, `ir_control_flow_converter.cc:43-54`: all values are in the input block. -/
def init (g : Graph) : Conv :=
  let live := g.ops.insertionSort (· ≤ ·)
  { node := g.node, live := live, next := match live.getLast? with | some v => v + 1 | none => 0, parent := fun _ => none, visited := fun _ => false,
    ops := fun _ => [], anc := fun _ => [], desc := fun _ => [], blocks := 0 }

/-- `convert`, `ir_control_flow_converter.cc:56-119`. The call of `process` with an empty queue (98-103) changes nothing and is left out; the check of
`discard_unused_input_values` (355-365) is the last one. `usage` is the usage of the outputs. Gives the final state and the first block. -/
def convert (g : Graph) (usage : Nat → Usage) (ternaries : Bool) : Res (Conv × Nat) := do
  let s := init g
  let fuel := s.live.length + 1
  let p ← process ternaries fuel s.newBlock (s.savesOf usage .returnValue ++ s.savesOf usage .output) 0 []
  check p.2.2.isEmpty
  let q ← optionalOutputs ternaries fuel p.1 p.2.1 ((s.savesOf usage .optional).filterMap fun v => (saveKey (s.node v).op).map fun k => (v, k))
  check (((List.range q.1.blocks).filter fun b => (q.1.anc b).isEmpty).length == 1)
  let r := q.1.eliminateCopies (List.range q.1.blocks)
  check (r.live.all fun v => r.parent v ≠ none || (r.consumers v).isEmpty)
  .ok (r, q.2)

end Conv

end Wf.Gen
