import Verif.Gen.AstModel

/-!
# Model of the operation counts in the comment at the start of a generated function: `operation_counts.{h,cc}` and `control_flow_graph.cc:796-866`

The counters are natural numbers instead of `std::size_t`. The recursion has a bound on the number of turns, which the theorems show to be large enough.
-/

namespace Wf.Gen

/-- `operation_count_label`, `operation_counts.h:13-22`. -/
inductive OpLabel
  | add | branch | call | compare | divide | multiply | negate
deriving DecidableEq, Repr

/-- The labels in the order of their numbers. -/
def OpLabel.all : List OpLabel := [.add, .branch, .call, .compare, .divide, .multiply, .negate]

/-- `string_from_operation_count_label`, `operation_counts.h:63-84`. -/
def OpLabel.text : OpLabel → String
  | .add => "add"
  | .branch => "branch"
  | .call => "call"
  | .compare => "compare"
  | .divide => "divide"
  | .multiply => "multiply"
  | .negate => "negate"

/-- `operation_counts`, `operation_counts.h:25-60`. -/
abbrev OpCounts := OpLabel → Nat

/-- `operation_counts::increment`, `operation_counts.cc:13-16`. -/
def OpCounts.plus (a b : OpCounts) : OpCounts := fun l => a l + b l

/-- `operation_counts::max`, `operation_counts.cc:18-23`. -/
def OpCounts.max (a b : OpCounts) : OpCounts := fun l => Nat.max (a l) (b l)

/-- `operation_counts::total`, `operation_counts.cc:34-36`. -/
def OpCounts.total (c : OpCounts) : Nat := OpLabel.all.foldl (fun n l => n + c l) 0

/-- The lines of `format_operation_count_comment`, `ast_conversion.cc:87-97`. -/
def OpCounts.comment (c : OpCounts) : List String :=
  ["Operation counts:"] ++ (OpLabel.all.filter fun l => 0 < c l).map (fun l => l.text ++ ": " ++ toString (c l)) ++ ["total: " ++ toString c.total]

namespace Conv

/-- `block::count_operation`, `ir_block.h:139-161`, for a test of the operation. -/
def countIf (s : Conv) (b : Nat) (p : Op → Bool) : Nat := (s.ops b).foldl (fun n v => n + if p (s.node v).op then 1 else 0) 0

/-- `count_muls_or_adds`, `control_flow_graph.cc:796-804`, summed over the operations of a block. -/
def countNary (s : Conv) (b : Nat) (op : Op) : Nat := (s.ops b).foldl (fun n v => n + if (s.node v).op = op then (s.node v).args.length - 1 else 0) 0

/-- The counts of one block, `control_flow_graph.cc:825-832`. -/
def blockCounts (s : Conv) (b : Nat) : OpCounts
  | .add => s.countNary b .add
  | .branch => s.countIf b fun op => op == .jump
  | .call => s.countIf b (fun op => match op with | .callStd _ => true | _ => false) + s.countIf b (fun op => match op with | .callExternal _ => true | _ => false)
  | .compare => s.countIf b fun op => match op with | .compare _ => true | _ => false
  | .divide => s.countIf b fun op => op == .div
  | .multiply => s.countNary b .mul
  | .negate => s.countIf b fun op => op == .neg

/-- `count_all_operations`, `control_flow_graph.cc:818-861`. -/
def countAll (s : Conv) : Nat → List Nat → Nat → Res OpCounts
  | 0, _, _ => .error .terminate
  | n + 1, blocked, b =>
    if b ∈ blocked then .ok fun _ => 0
    else
      match s.desc b with
      | [] => .ok (s.blockCounts b)
      | d :: ds =>
        if s.ops b = [] then .error .assertion
        else
          match s.endsInJump b, ds with
          | false, [] => (countAll s n blocked d).map (s.blockCounts b).plus
          | true, [e] =>
            match s.mergePoint d e with
            | .error e => .error e
            | .ok m =>
              match countAll s n (if m ∈ blocked then blocked else m :: blocked) d with
              | .error e => .error e
              | .ok left =>
                match countAll s n (if m ∈ blocked then blocked else m :: blocked) e with
                | .error e => .error e
                | .ok right => (countAll s n ((if m ∈ blocked then blocked else m :: blocked).filter (· ≠ m)) m).map ((s.blockCounts b).plus (left.max right)).plus
          | _, _ => .error .assertion

/-- `compute_operation_counts`, `control_flow_graph.cc:863-866`. -/
def operationCounts (s : Conv) (entry : Nat) : Res OpCounts := s.countAll (s.blocks + 1) [] entry

end Conv

end Wf.Gen
