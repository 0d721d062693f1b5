import Verif.Gen.GraphModel

/-!
# Model of factorisation: `factorizer.{h,cc}` and `control_flow_graph.cc:194-208, 402-622`

A `std::bitset<64>` is the number returned by its `to_ullong`. Hash tables are lists. The numeric type of a product, used only to decide
whether the constant one is cast, is a parameter.
-/

namespace Wf.Gen

/-! ## The search, `factorizer.cc` -/

/-- `a & ~b`. -/
def andNot (a b : Nat) : Nat := a ^^^ (a &&& b)

/-- `bitset::count`. -/
def bitCount (b : Nat) : Nat := ((List.range 64).filter fun i => b.testBit i).length

/-- The bitset with the bits of `l` set, by successive `set`; with `List.range` it is `fill_bits`, `factorizer.cc:224-230`. -/
def setBits (l : List Nat) : Nat := l.foldl (fun m i => m ||| (1 <<< i)) 0

/-- One step of a factorisation, `factorizer.h:75-76`: the variables taken out, and the terms they are taken out of. -/
abbrev FacStep := Nat × Nat

/-- `order_bit_tuples`, `factorizer.cc:22-30`, as a non-strict order. -/
def facStepLe (a b : FacStep) : Prop := a.1 < b.1 ∨ (a.1 = b.1 ∧ a.2 ≤ b.2)

instance : DecidableRel facStepLe := fun a b => by unfold facStepLe; infer_instance

/-- `factorization::push`, `factorizer.cc:44-66`. `static_vector` has room for eight steps; pushing a ninth is undefined in release builds. -/
def pushFac (s : FacStep) (f : List FacStep) : Res (List FacStep) := if f.length < 8 then .ok (f.orderedInsert facStepLe s) else .error .ub

/-- `factorization::score`, accumulated by `push`. -/
def facScore (f : List FacStep) : Nat := (f.map fun s => bitCount s.1 * (bitCount s.2 - 1)).sum

/-- `factorization::unfactored_terms`, `factorizer.cc:66-75`. -/
def unfactoredTerms (f : List FacStep) (n : Nat) : Nat := f.foldl (fun m s => andNot m s.2) (setBits (List.range n))

/-- A column of the transposed table, `factorizer.cc:236-244`: the terms that contain variable `v`. -/
def termsWith (terms : List Nat) (v : Nat) : Nat := setBits ((List.range terms.length).filter fun i => (terms.getD i 0).testBit v)

/-- `find_jointly_factorizable_variables`, `factorizer.cc:113-134`. -/
def findJointly (terms : List Nat) (remTerms remVars v : Nat) : FacStep :=
  let suitable := remTerms &&& termsWith terms v
  if bitCount suitable ≤ 1 then (0, suitable)
  else ((List.range terms.length).foldl (fun m i => if suitable.testBit i then m &&& terms.getD i 0 else m) remVars, suitable)

/-- `scored_factorization_step`, `factorizer.cc:134-141`. -/
structure ScoredStep where
  variableIndex : Nat
  score : Nat
  step : FacStep
deriving Repr, DecidableEq

/-- One iteration of `rank_factorization_steps`, `factorizer.cc:145-185`. -/
def rankOne (terms : List Nat) (remVars remTerms maxToReturn : Nat) (ranked : List ScoredStep) (v : Nat) : List ScoredStep :=
  if remVars.testBit v = false then ranked
  else
    let s := findJointly terms remTerms remVars v
    if s.1 = 0 then ranked
    else
      let score := bitCount s.1 * (bitCount s.2 - 1)
      let before := ranked.takeWhile fun t => t.score > score
      let after := ranked.dropWhile fun t => t.score > score
      if (after.head?.map fun t => t.step.1) = some s.1 then ranked
      else (before ++ ⟨v, score, s⟩ :: after).take maxToReturn

/-- `rank_factorization_steps`, `factorizer.cc:145-185`. -/
def rankSteps (terms : List Nat) (numVars remVars remTerms maxToReturn : Nat) : List ScoredStep :=
  (List.range numVars).foldl (rankOne terms remVars remTerms maxToReturn) []

/-- The factorisations visited so far, and the outputs. -/
structure SearchState where
  visited : List (List FacStep)
  outputs : List (List FacStep)

/-- A loop in the error monad. -/
def foldRes {α β : Type} (f : β → α → Res β) : β → List α → Res β
  | b, [] => .ok b
  | b, a :: l => match f b a with
    | .ok b' => foldRes f b' l
    | .error e => .error e

/-- `factorize_and_recurse`, `factorizer.cc:187-221`. The fuel bounds the depth; running out is reported and proved impossible. -/
def factorizeAndRecurse (terms : List Nat) (numVars branching : Nat) :
    Nat → Nat → Nat → List FacStep → SearchState → ScoredStep → Res SearchState
  | 0, _, _, _, _, _ => .error .terminate
  | fuel + 1, remVars, remTerms, parent, st, s =>
    match pushFac s.step parent with
    | .error e => .error e
    | .ok result =>
      if result ∈ st.visited then .ok st
      else
        let st := { st with visited := result :: st.visited }
        let remTerms := andNot remTerms s.step.2
        let remVars := andNot remVars (setBits [s.variableIndex])
        if remTerms = 0 ∨ result.length = 8 then .ok { st with outputs := st.outputs ++ [result] }
        else match rankSteps terms numVars remVars remTerms branching with
          | [] => .ok { st with outputs := st.outputs ++ [result] }
          | next => foldRes (factorizeAndRecurse terms numVars branching fuel remVars remTerms result) st next

/-- The order of the final `stable_sort`, `factorizer.cc:278-290`. -/
def facBetter (a b : List FacStep) : Prop := facScore a > facScore b ∨ (facScore a = facScore b ∧ a.length ≤ b.length)

instance : DecidableRel facBetter := fun a b => by unfold facBetter; infer_instance

/-- `compute_ranked_factorizations`, `factorizer.cc:232-292`. -/
def rankedFactorizations (terms : List Nat) (numVars branching : Nat) : Res (List (List FacStep)) :=
  if numVars > 64 ∨ terms.length > 64 then .error .assertion
  else if terms = [] ∨ numVars = 0 then .ok []
  else
    let remVars := setBits (List.range numVars)
    let remTerms := setBits (List.range terms.length)
    match rankSteps terms numVars remVars remTerms branching with
    | [] => .ok []
    | next =>
      match foldRes (factorizeAndRecurse terms numVars branching 8 remVars remTerms []) ⟨[], []⟩ next with
      | .ok st => .ok (st.outputs.insertionSort facBetter)
      | .error e => .error e

/-! ## Rewriting a sum, `control_flow_graph.cc` -/

/-- The distinct operands in order of first appearance (`operand_name_to_index_`, `index_to_operand_`), `control_flow_graph.cc:427-438`. -/
def distinctOperands (products : List (List Nat)) : List Nat := products.flatten.foldl (fun vs a => if a ∈ vs then vs else vs ++ [a]) []

/-- `variable_index_assignor::initialize`, `control_flow_graph.cc:419-456`: the operands by index, and the bitset of each product. -/
def assignIndices (products : List (List Nat)) : Option (List Nat × List Nat) :=
  if products.length > 64 then none
  else if (distinctOperands products).length > 64 then none
  else some (distinctOperands products, products.map fun l => setBits (l.map fun a => (distinctOperands products).idxOf a))

/-- `get_variables_from_bitset`, `control_flow_graph.cc:455-463`. -/
def variablesOf (vs : List Nat) (bits : Nat) : List Nat := ((List.range vs.length).filter fun i => bits.testBit i).map fun i => vs.getD i 0

/-- The loop of `unique_and_extract_duplicates`, `utility/algorithms.h:137-159`: the unique elements and the extracted duplicates. -/
def uniqueLoop (last : Nat) : List Nat → List Nat × List Nat
  | [] => ([last], [])
  | a :: l => if last = a then ((uniqueLoop last l).1, a :: (uniqueLoop last l).2) else (last :: (uniqueLoop a l).1, (uniqueLoop a l).2)

def uniqueAndDuplicates : List Nat → List Nat × List Nat
  | [] => ([], [])
  | a :: l => uniqueLoop a l

/-- The factors left in a product, `control_flow_graph.cc:507-522`, with `variable_was_factored_out` (470-474). -/
def remainingOperands (vs : List Nat) (bits : Nat) (l : List Nat) : List Nat :=
  (uniqueAndDuplicates l).2 ++ (uniqueAndDuplicates l).1.filter fun a => !bits.testBit (vs.idxOf a)

/-- A value for the remaining factors, `control_flow_graph.cc:524-543`; `cast` is the type the constant one must be cast to, if any. -/
def pushProduct (cast : Option Nat) (g : Graph) : List Nat → Graph × Nat
  | [] => match cast with
    | none => g.push (.load (.int 1)) []
    | some t => (g.push (.load (.int 1)) []).1.push (.cast t) [(g.push (.load (.int 1)) []).2]
  | [x] => (g, x)
  | l => g.push .mul l

/-- `pushProduct` for the terms of one group, in order. -/
def pushProducts (cast : Option Nat) (g : Graph) : List (List Nat) → Graph × List Nat
  | [] => (g, [])
  | l :: ls => ((pushProducts cast (pushProduct cast g l).1 ls).1, (pushProduct cast g l).2 :: (pushProducts cast (pushProduct cast g l).1 ls).2)

/-- The products of one group. -/
def groupOf (products : List (List Nat)) (bits : Nat) : List (List Nat) :=
  ((List.range products.length).filter fun j => bits.testBit j).map fun j => products.getD j []

/-- One group, `control_flow_graph.cc:490-560`. -/
def pushStep (cast : Option Nat) (vs : List Nat) (products : List (List Nat)) (g : Graph) (s : FacStep) : Res (Graph × Nat) :=
  if bitCount s.1 < 1 ∨ bitCount s.2 < 2 ∨ ¬ (∀ l ∈ groupOf products s.2, l.Pairwise (· ≤ ·)) ∨ (groupOf products s.2).length < 2 ∨
      (variablesOf vs s.1).length + 1 < 2 then .error .assertion
  else
    let p := pushProducts cast g ((groupOf products s.2).map (remainingOperands vs s.1))
    let q := p.1.push .add p.2
    .ok (q.1.push .mul (variablesOf vs s.1 ++ [q.2]))

def pushSteps (cast : Option Nat) (vs : List Nat) (products : List (List Nat)) (g : Graph) : List FacStep → Res (Graph × List Nat)
  | [] => .ok (g, [])
  | s :: ss =>
    match pushStep cast vs products g s with
    | .error e => .error e
    | .ok (g', w) =>
      match pushSteps cast vs products g' ss with
      | .error e => .error e
      | .ok (g'', ws) => .ok (g'', w :: ws)

/-- The final sum, `control_flow_graph.cc:575-582`. -/
def finishSum (g : Graph) : List Nat → Res (Graph × Nat)
  | [] => .error .assertion
  | [x] => .ok (g, x)
  | l => .ok (g.push .add l)

/-- `factorize_sum_of_products`, `control_flow_graph.cc:476-571`. The operand lists of the products are read once: creating values does not
change them. -/
def factorizeSum (cast : Option Nat) (vs muls : List Nat) (fac : List FacStep) (g : Graph) (nonMuls : List Nat) : Res (Graph × Nat) :=
  match pushSteps cast vs (muls.map fun m => (g.node m).args) g fac with
  | .error e => .error e
  | .ok (g', ws) =>
    finishSum g' (ws ++ nonMuls ++
      ((List.range muls.length).filter fun i => (unfactoredTerms fac muls.length).testBit i).map fun i => muls.getD i 0)

/-- One iteration of `factorize_sums_in_block`, `control_flow_graph.cc:596-616`, with the search for factorisations as a parameter.
`separate_muls` is at 402-413. -/
def factorizeStep (choose : List Nat → Nat → Res (List (List FacStep))) (cast : Graph → Nat → Option Nat) (g : Graph) (v : Nat) : Res Graph :=
  if (g.node v).op ≠ .add then .ok g
  else
    let muls := (g.node v).args.filter fun a => (g.node a).op == .mul
    let nonMuls := (g.node v).args.filter fun a => !((g.node a).op == .mul)
    if muls.length ≤ 1 then .ok g
    else match assignIndices (muls.map fun m => (g.node m).args) with
      | none => .ok g
      | some (vs, bits) =>
        match choose bits vs.length with
        | .error e => .error e
        | .ok [] => .ok g
        | .ok (fac :: _) =>
          match factorizeSum (cast g v) vs muls fac g nonMuls with
          | .error e => .error e
          | .ok (g', w) => g'.replaceWith v w

/-- `factorize_sums_in_block`, `control_flow_graph.cc:573-622`. -/
def Graph.factorizeBlock (choose : List Nat → Nat → Res (List (List FacStep))) (cast : Graph → Nat → Option Nat) (g : Graph) : Res Graph :=
  match forOps (factorizeStep choose cast) g g.ops with
  | .ok g' => g'.removeUnused.topologicalSort
  | .error e => .error e

/-- One pass of `factorize_sums`, `control_flow_graph.cc:196-208`. -/
def Graph.factorizePass (choose : List Nat → Nat → Res (List (List FacStep))) (cast : Graph → Nat → Option Nat) (g : Graph) : Res Graph :=
  match g.factorizeBlock choose cast with
  | .error e => .error e
  | .ok g1 =>
    match g1.mergeMultiplications with
    | .error e => .error e
    | .ok g2 =>
      match g2.eliminateCopies with
      | .error e => .error e
      | .ok g3 => g3.eliminateDuplicates

/-- `factorize_sums`, `control_flow_graph.cc:196-208`. -/
def Graph.factorizeSums (choose : List Nat → Nat → Res (List (List FacStep))) (cast : Graph → Nat → Option Nat) : Nat → Graph → Res Graph
  | 0, g => .ok g
  | n + 1, g =>
    match g.factorizePass choose cast with
    | .error e => .error e
    | .ok g' => g'.factorizeSums choose cast n

/-- The search as the program calls it, `control_flow_graph.cc:606-609`. -/
def programSearch (bits : List Nat) (numVars : Nat) : Res (List (List FacStep)) := rankedFactorizations bits numVars 4

/-- The optional part of `apply_simplifications`, `control_flow_graph.cc:172-192`. -/
def Graph.binarizeIf (binarizeOperations : Bool) (fuel : Nat) (g : Graph) : Res Graph :=
  if binarizeOperations then
    match g.binarize fuel with
    | .error e => .error e
    | .ok g' => g'.eliminateDuplicates
  else .ok g

/-- `apply_simplifications`, `control_flow_graph.cc:172-192`. -/
def Graph.applySimplifications (cast : Graph → Nat → Option Nat) (passes : Nat) (binarizeOperations : Bool) (fuel : Nat) (g : Graph) : Res Graph :=
  match g.eliminateDuplicates with
  | .error e => .error e
  | .ok g1 =>
    match g1.factorizeSums programSearch cast passes with
    | .error e => .error e
    | .ok g2 =>
      match g2.binarizeIf binarizeOperations fuel with
      | .error e => .error e
      | .ok g4 =>
        match g4.insertNegations with
        | .error e => .error e
        | .ok g5 => g5.eliminateDuplicates

end Wf.Gen
