import Verif.Sym.RebuildModel
import Verif.Gen.GraphModel
import Mathlib.Data.Nat.Pairing

/-!
# Model of the lowering of expressions to the intermediate form: `ir_form_visitor.{h,cc}`

The visitor appends operations to the single block of a graph (`Wf.Gen.Graph`). It remembers the value it made for every expression and every
cast it inserted. Contents of `ir::load` other than integers are numbered in the order of their first use (`leaves`).

Arguments of a C++ call are evaluated from left to right here; the standard leaves the order open, which only affects the order of casts.
`notes` has no counterpart in the code: it records the powers written as reciprocals and the arguments of `floor` and `signum`, to which
the theorems refer. Compound expressions (struct members, external functions) and struct outputs are not modelled: they give an assertion error.
-/

namespace Wf.Sym
open Wf.Gen (Prim Graph Op Load)

variable {F : Type} [FnOps F] [DecidableEq F]

/-- `std_math_function`, `enumerations.h:101-125`. -/
inductive Std
  | fn (f : BuiltIn) | sqrt | powi | powf
deriving DecidableEq, Repr

/-- The position in `std_math_function`. `std_math_function_from_built_in`, `ir_form_visitor.cc:133-173`, maps the functions by name. -/
def Std.code : Std → Nat
  | .fn .cos => 0 | .fn .sin => 1 | .fn .tan => 2 | .fn .arccos => 3 | .fn .arcsin => 4 | .fn .arctan => 5
  | .fn .cosh => 6 | .fn .sinh => 7 | .fn .tanh => 8 | .fn .arccosh => 9 | .fn .arcsinh => 10 | .fn .arctanh => 11
  | .fn .log => 12 | .fn .exp => 13 | .sqrt => 14 | .fn .abs => 15 | .fn .signum => 16 | .fn .floor => 17 | .fn .arctan2 => 18
  | .powi => 19 | .powf => 20

/-- `numeric_primitive_type`, `enumerations.h:67-71`, as a number; promotion takes the maximum. -/
def primCode : Prim → Nat
  | .boolean => 0 | .integral => 1 | .floating => 2

/-- `std::max` of two numeric types. -/
def primMax (a b : Prim) : Prim := if primCode a < primCode b then b else a

/-- `relational_operation` as a number. -/
def relCode : RelOp → Nat
  | .lt => 0 | .le => 1 | .eq => 2

/-- What the theorems need to know about a run. -/
inductive Note (F : Type)
  | recip (b e : Expr F)
  | realArg (x : Expr F)
deriving DecidableEq

/-- `ir_form_visitor`, `ir_form_visitor.h:88-136`: the graph written to, the types of its values, `cache_` and `cached_casts_`. -/
structure Low (F : Type) where
  g : Graph
  ty : Nat → Prim
  cache : List (Expr F × Nat)
  casts : List ((Nat × Prim) × Nat)
  leaves : List (Expr F)
  notes : List (Note F)

/-- `push_operation`, `ir_form_visitor.cc:445-453`. -/
def Low.push (s : Low F) (op : Op) (t : Prim) (args : List Nat) : Low F × Nat :=
  ({ s with g := (s.g.push op args).1, ty := fun v => if v = s.g.next then t else s.ty v }, s.g.next)

/-- The number of a leaf in `ir::load`; a new leaf gets the next number. -/
def leafIndex (e : Expr F) : List (Expr F) → Nat
  | [] => 0
  | l :: ls => if identical l e then 0 else leafIndex e ls + 1

/-- `push_operation(ir::load{...}, t)` for a leaf that is not an integer. -/
def Low.load (s : Low F) (e : Expr F) (t : Prim) : Low F × Nat :=
  let k := leafIndex e s.leaves
  ({ s with leaves := if k < s.leaves.length then s.leaves else s.leaves ++ [e] }).push (.load (.other k)) t []

/-- `maybe_cast`, `ir_form_visitor.cc:455-468`. -/
def maybeCast (s : Low F) (v : Nat) (t : Prim) : Low F × Nat :=
  if s.ty v = t then (s, v)
  else match s.casts.find? (fun c => c.1 = (v, t)) with
    | some c => (s, c.2)
    | none => ({ (s.push (.cast (primCode t)) t [v]).1 with casts := s.casts ++ [((v, t), (s.push (.cast (primCode t)) t [v]).2)] },
        (s.push (.cast (primCode t)) t [v]).2)

/-- `maybe_cast` on every operand, in order. -/
def maybeCasts (s : Low F) (t : Prim) : List Nat → Low F × List Nat
  | [] => (s, [])
  | v :: vs => ((maybeCasts (maybeCast s v t).1 t vs).1, (maybeCast s v t).2 :: (maybeCasts (maybeCast s v t).1 t vs).2)

/-- `create_add_or_mul_with_operands`, `ir_form_visitor.cc:269-279`. -/
def addOrMul (op : Op) (s : Low F) (vs : List Nat) : Low F × Nat :=
  let t := vs.foldl (fun t v => primMax t (s.ty v)) .integral
  (maybeCasts s t vs).1.push op t (maybeCasts s t vs).2

/-- The odd case of a turn of `exponentiate_by_squaring`, `ir_form_visitor.cc:288-291`. -/
def timesBase (s : Low F) (base : Nat) (result : Option Nat) (e : Nat) : Low F × Option Nat :=
  if e % 2 = 1 then
    match result with
    | some r => ((s.push .mul (s.ty base) [r, base]).1, some (s.push .mul (s.ty base) [r, base]).2)
    | none => (s, some base)
  else (s, result)

/-- The loop of `exponentiate_by_squaring`, `ir_form_visitor.cc:282-299`; the first argument bounds the number of turns. -/
def squareLoop : Nat → Low F → Nat → Option Nat → Nat → Low F × Nat
  | 0, s, base, _, _ => (s, base)
  | k + 1, s, base, result, e =>
    if e / 2 = 0 then ((timesBase s base result e).1, (timesBase s base result e).2.getD base)
    else
      let p := (timesBase s base result e).1.push .mul ((timesBase s base result e).1.ty base) [base, base]
      squareLoop k p.1 p.2 (timesBase s base result e).2 (e / 2)

/-- Type of the recursive calls: the state and an expression give the new state and the value. -/
abbrev Lowering (F : Type) := Low F → Expr F → Res (Low F × Nat)

/-- Convert several expressions, in order (`transform_map`). -/
def lowerList (R : Lowering F) : Low F → List (Expr F) → Res (Low F × List Nat)
  | s, [] => .ok (s, [])
  | s, e :: es => andThen (R s e) fun p => andThen (lowerList R p.1 es) fun q => .ok (q.1, p.2 :: q.2)

/-- `exponentiate_by_squaring`, `ir_form_visitor.cc:282-299`. -/
def bySquaring (R : Lowering F) (s : Low F) (base e : Nat) : Res (Low F × Nat) :=
  if e = 0 then R s (.int 1) else .ok (squareLoop e s base none e)

/-- `pow_extract_base_and_integer_exponent`, `ir_form_visitor.cc:302-328`: the value to be multiplied and how often. -/
def powExtract (R : Lowering F) (s : Low F) (b e : Expr F) : Res (Option (Low F × Nat × Nat)) :=
  match e with
  | .int n =>
    if 0 < n ∧ n ≤ 16 then
      andThen (R s b) fun p => .ok (some ((maybeCast p.1 p.2 .floating).1, (maybeCast p.1 p.2 .floating).2, n.toNat))
    else .ok none
  | .rat r =>
    if 0 < r.n ∧ r.d = 2 ∧ r.n ≤ 16 then
      andThen (R s b) fun p =>
        let q := (maybeCast p.1 p.2 .floating).1.push (.callStd Std.sqrt.code) .floating [(maybeCast p.1 p.2 .floating).2]
        .ok (some (q.1, q.2, r.n.toNat))
    else .ok none
  | _ => .ok none

/-- The first negative integer other than minus one is negated, `ir_form_visitor.cc:237-250`. -/
def negateFirst (K : Ctors F) : List (Expr F) → Res (List (Expr F) × Bool)
  | [] => .ok ([], false)
  | t :: ts =>
    match t with
    | .int n =>
      if n < 0 ∧ n ≠ -1 then andThen (negE K (.int n)) fun t' => .ok (t' :: ts, true)
      else andThen (negateFirst K ts) fun r => .ok (.int n :: r.1, r.2)
    | t => andThen (negateFirst K ts) fun r => .ok (t :: r.1, r.2)

/-- The operands of a product, `ir_form_visitor.cc:254-265`. -/
def factorValues (R : Lowering F) : Low F → List (Expr F) → Res (Low F × List Nat)
  | s, [] => .ok (s, [])
  | s, t :: ts =>
    andThen (factor s t) fun p => andThen (factorValues R p.1 ts) fun q => .ok (q.1, p.2 ++ q.2)
where
  factor (s : Low F) (t : Expr F) : Res (Low F × List Nat) :=
    match t with
    | .pow b e => andThen (powExtract R s b e) fun x =>
      match x with
      | some (s', v, n) => .ok (s', List.replicate n v)
      | none => andThen (R s t) fun p => .ok (p.1, [p.2])
    | t => andThen (R s t) fun p => .ok (p.1, [p.2])

/-- `operator()(const multiplication&)`, `ir_form_visitor.cc:233-267`. -/
def lowerMul (K : Ctors F) (R : Lowering F) (s : Low F) (ts : List (Expr F)) : Res (Low F × Nat) :=
  andThen (negateFirst K ts) fun r => andThen (factorValues R s (if r.2 then r.1 ++ [.int (-1)] else r.1)) fun q => .ok (addOrMul .mul q.1 q.2)

/-- A power whose exponent has a negative coefficient, `ir_form_visitor.cc:339-347`. -/
def lowerRecip (K : Ctors F) (R : Lowering F) (s : Low F) (b e : Expr F) : Res (Low F × Nat) :=
  andThen (negE K e) fun ne => andThen (K.pow b ne) fun r => andThen (R { s with notes := s.notes ++ [.recip b e] } r) fun p =>
    andThen (R p.1 (.int 1)) fun q =>
      let c := maybeCast q.1 q.2 .floating
      let d := maybeCast c.1 p.2 .floating
      .ok (d.1.push .div .floating [c.2, d.2])

/-- A power by calling a function, `ir_form_visitor.cc:357-369`. -/
def lowerPowCall (R : Lowering F) (s : Low F) (b e : Expr F) : Res (Low F × Nat) :=
  andThen (R s b) fun p =>
    let c := maybeCast p.1 p.2 .floating
    andThen (R c.1 e) fun q =>
      if q.1.ty q.2 = .integral then .ok (q.1.push (.callStd Std.powi.code) .floating [c.2, q.2])
      else .ok ((maybeCast q.1 q.2 .floating).1.push (.callStd Std.powf.code) .floating [c.2, (maybeCast q.1 q.2 .floating).2])

/-- `operator()(const power&)`, `ir_form_visitor.cc:335-370`. -/
def lowerPow (K : Ctors F) (R : Lowering F) (s : Low F) (b e : Expr F) : Res (Low F × Nat) :=
  if isNegNum (asCoeffMul e).1 then lowerRecip K R s b e
  else andThen (powExtract R s b e) fun x =>
    match x with
    | some (s', v, n) => bySquaring R s' v n
    | none => lowerPowCall R s b e

/-- `std_function_output_type`, `ir_form_visitor.cc:178-197`. -/
def stdType (s : Low F) (f : BuiltIn) (vs : List Nat) : Res Prim :=
  match f, vs with
  | .abs, [v] => .ok (s.ty v)
  | .abs, _ => .error .assertion
  | .floor, _ => .ok .integral
  | .signum, _ => .ok .integral
  | _, _ => .ok .floating

/-- `operator()(const built_in_function_invocation&)`, `ir_form_visitor.cc:199-207`. -/
def lowerFn (R : Lowering F) (s : Low F) (f : BuiltIn) (as : List (Expr F)) : Res (Low F × Nat) :=
  andThen (lowerList R { s with notes := s.notes ++ (if f = .floor ∨ f = .signum then as.map .realArg else []) } as) fun q =>
    andThen (stdType q.1 f q.2) fun t => .ok (q.1.push (.callStd (Std.fn f).code) t q.2)

/-- `operator()(const conditional&)`, `ir_form_visitor.cc:55-63`. -/
def lowerCond (R : Lowering F) (s : Low F) (c a b : Expr F) : Res (Low F × Nat) :=
  andThen (R s c) fun p => andThen (R p.1 a) fun q => andThen (R q.1 b) fun r =>
    let t := primMax (r.1.ty q.2) (r.1.ty r.2)
    let x := maybeCast r.1 q.2 t
    let y := maybeCast x.1 r.2 t
    .ok (y.1.push .cond t [p.2, x.2, y.2])

/-- `operator()(const relational&)`, `ir_form_visitor.cc:376-383`. -/
def lowerRel (R : Lowering F) (s : Low F) (op : RelOp) (a b : Expr F) : Res (Low F × Nat) :=
  andThen (R s a) fun q => andThen (R q.1 b) fun r =>
    let t := primMax (r.1.ty q.2) (r.1.ty r.2)
    let x := maybeCast r.1 q.2 t
    let y := maybeCast x.1 r.2 t
    .ok (y.1.push (.compare (relCode op)) .boolean [x.2, y.2])

/-- The overloads of `operator()`, `ir_form_visitor.cc:21-417`. A sum or product of fewer than two terms cannot be made
(`addition.h:27-35`, `multiplication.h:31-39`), nor the bracket of an expression that is not Boolean (`casts.h`). -/
def lowerNode (K : Ctors F) (R : Lowering F) (s : Low F) (e : Expr F) : Res (Low F × Nat) :=
  match e with
  | .node (.add) ts => if ts.length < 2 then .error .assertion else andThen (lowerList R s ts) fun q => .ok (addOrMul .add q.1 q.2)
  | .node (.mul) ts => if ts.length < 2 then .error .assertion else lowerMul K R s ts
  | .node (.pow) [b, x] => lowerPow K R s b x
  | .node (.fn f) as => lowerFn R s f as
  | .node (.cond) [c, a, b] => lowerCond R s c a b
  | .node (.rel op) [a, b] => lowerRel R s op a b
  | .node (.iverson) [c] =>
    if isBoolean c then andThen (R s c) fun p => .ok (p.1.push (.cast (primCode .integral)) .integral [p.2]) else .error .assertion
  | .node (.uneval) [x] => R s x
  | .node (.stop) [x] => R s x
  | .node (.int n) [] => .ok (s.push (.load (.int n)) .integral [])
  | .node (.flt f) [] => .ok (s.load (.flt f) .floating)
  | .node (.rat r) [] => .ok (s.load (.rat r) .floating)
  | .node (.const c) [] => .ok (s.load (.const c) .floating)
  | .node (.var n t) [] => .ok (s.load (.var n t) .floating)
  | .node (.argVar n i t) [] => .ok (s.load (.argVar n i t) t)
  | .node (.bconst b) [] => .ok (s.load (.bconst b) .boolean)
  | .node (.zoo) _ => .error .type
  | .node (.imag) _ => .error .type
  | .node (.undef) _ => .error .type
  | .node (.uniq _ _) _ => .error .type
  | .node (.deriv _) _ => .error .type
  | .node (.subst) _ => .error .type
  | .node (.symfn _) _ => .error .type
  | _ => .error .assertion

/-- The cached `operator()`, `ir_form_visitor.cc:419-428`. The first argument bounds the depth of nested calls. -/
def lower (K : Ctors F) : Nat → Lowering F
  | 0, _, _ => .error .terminate
  | n + 1, s, e =>
    match s.cache.find? (fun c => identical c.1 e) with
    | some c => .ok (s, c.2)
    | none => andThen (lowerNode K (lower K n) s e) fun p => .ok ({ p.1 with cache := p.1.cache ++ [(e, p.2)] }, p.2)

/-! ## Outputs -/

/-- The canonical order of `expression_sorter`, `ir_form_visitor.cc:475-478`. -/
def canonSort (ts : List (Expr F)) : List (Expr F) := ts.insertionSort (fun a b => exactOrder a b ≠ .gt)

/-- `expression_sorter::operator()`, `ir_form_visitor.cc:470-485`. A product that would get two numbers as factors (which needs a factor that
becomes a number when it is made again) is not modelled: an assertion error. The comparison of rationals is exact here (C06). -/
def sortBody (K : Ctors F) (m : Nat) (R : Expr F → Res (Expr F)) (e : Expr F) : Res (Expr F) :=
  match e with
  | .node .add ts => andThen (mapRes R ts) fun bs => if bs.length < 2 then .error .assertion else .ok (.add (canonSort bs))
  | .node .mul ts => andThen (mapRes R ts) fun bs =>
    if bs.length < 2 ∨ 1 < (bs.filter isNumeric).length then .error .assertion else .ok (.mul (canonSort bs))
  | .node h as => if h.isLeaf then .ok (.node h as) else mapChildren K m R (.node h as)

/-- `sort_expression`, `ir_form_visitor.cc:497-501`. -/
def sortExpr (K : Ctors F) (m n : Nat) : Expr F → Res (Expr F) := visitor (sortBody K m) n

/-- An output of a function: a scalar with its declared type, or a matrix. -/
inductive Output (F : Type)
  | scalar (e : Expr F) (t : Prim)
  | matrix (rows cols : Nat) (es : List (Expr F))

/-- A matrix type as a number. -/
def matrixCode (rows cols : Nat) : Nat := Nat.pair rows cols

/-- Elements of a matrix, `ir_form_visitor.cc:227-230`. -/
def lowerElements (R : Lowering F) : Low F → List (Expr F) → Res (Low F × List Nat)
  | s, [] => .ok (s, [])
  | s, e :: es => andThen (R s e) fun p =>
    andThen (lowerElements R (maybeCast p.1 p.2 .floating).1 es) fun q => .ok (q.1, (maybeCast p.1 p.2 .floating).2 :: q.2)

/-- `add_output_value`, `ir_form_visitor.cc:430-443`, and `operator()(const matrix&)`, 224-231. (The cache entry of the matrix itself is
left out: a matrix that is output twice is constructed twice.) -/
def addOutput (K : Ctors F) (m n : Nat) (s : Low F) (key : Nat) : Output F → Res (Low F)
  | .scalar e t => andThen (sortExpr K m n e) fun e' => andThen (lower K n s e') fun p =>
    .ok ((maybeCast p.1 p.2 t).1.push (.save key) .floating [(maybeCast p.1 p.2 t).2]).1
  | .matrix r c es => andThen (mapRes (sortExpr K m n) es) fun es' => andThen (lowerElements (lower K n) s es') fun p =>
    let x := p.1.push (.construct (matrixCode r c)) .floating p.2
    .ok (x.1.push (.save key) .floating [x.2]).1

/-- `control_flow_graph::control_flow_graph`, `control_flow_graph.cc:136-168`, before the simplifications: the outputs in order. -/
def lowerFunction (K : Ctors F) (m n : Nat) (s : Low F) : List (Nat × Output F) → Res (Low F)
  | [] => .ok s
  | (key, o) :: os => andThen (addOutput K m n s key o) fun s' => lowerFunction K m n s' os

/-- The empty graph. -/
def Low.empty : Low F := ⟨⟨fun _ => ⟨.load (.int 0), []⟩, [], 0⟩, fun _ => .floating, [], [], [], []⟩

end Wf.Sym
