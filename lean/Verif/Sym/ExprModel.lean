import Verif.Num.RationalModel
import Verif.Ord.OrderingModel
import Verif.Gen.TypesModel

/-!
# Model of expression trees: identity, canonical order and hash

An expression is a tree whose nodes carry a `Head` (the kind of node and the data it stores besides its children) and a list of children.
Scalar, boolean, compound and matrix expressions are all trees of this one type; `Head.rank` and `Head.kind` tell the four categories apart.
The model of a node with a fixed number of children (a power, say) is a tree with exactly that many.

Simplifications: a node is a value, so the address comparison that precedes a structural comparison is left out (it only matters for a
not-a-number constant compared with itself); a custom type is its name, its fields and a number standing for the C++ or Python type behind it
(fields of custom type do not carry that number); characters of names are compared and hashed by code point.
-/

namespace Wf.Sym
open Wf.Gen (Prim Ty Fields)

deriving instance DecidableEq for Wf.Gen.Ty, Wf.Gen.Fields
deriving instance Repr for Wf.Gen.Ty, Wf.Gen.Fields

/-- `symbolic_constant_enum`, `enumerations.h:61-64`. -/
inductive SymConst
  | euler | pi
deriving DecidableEq, Repr

/-- `number_set`, `enumerations.h:84-95`. -/
inductive NSet
  | positive | nonNegative | real | complex | unknown
deriving DecidableEq, Repr

/-- `relational_operation`, `enumerations.h:51-58`. -/
inductive RelOp
  | lt | le | eq
deriving DecidableEq, Repr

/-- `built_in_function`, `enumerations.h:26-47`. -/
inductive BuiltIn
  | cos | sin | tan | arccos | arcsin | arctan | cosh | sinh | tanh | arccosh | arcsinh | arctanh | exp | log | abs | signum | floor | arctan2
deriving DecidableEq, Repr

/-- `custom_type`, `code_generation/types.h:128-190`. -/
structure CType where
  name : String
  fields : Fields
  underlying : Nat
deriving DecidableEq, Repr

/-- `type_variant`, `code_generation/types.h:203`, where an external function mentions it. -/
inductive FnTy
  | scalar (t : Prim)
  | matrix (rows cols : Nat)
  | custom (t : CType)
deriving DecidableEq, Repr

/-- `external_function`, `external_function.h:36-86`. -/
structure ExtFn where
  name : String
  args : List (String × FnTy)
  ret : FnTy
deriving DecidableEq, Repr

/-- What a node stores besides its children: the type lists of `expression.h:29-52`, `matrix_expression.h:24-26`,
`compound_expression.h:15-19` and `boolean_expression.h:15-18`. -/
inductive Head (F : Type)
  | flt (f : F) | int (n : Int) | rat (r : RatC) | const (c : SymConst) | zoo | imag
  | var (name : String) (s : NSet) | argVar (name : String) (index : Nat) (t : Prim) | uniq (index : Nat) (s : NSet)
  | mul | add | pow | fn (f : BuiltIn) | symfn (name : String) | uneval | cond | iverson | elem (index : Nat)
  | deriv (order : Nat) | subst | stop | undef
  | matrix (rows cols : Nat)
  | call (f : ExtFn) | typeArg (name : String) (t : CType) | construct (t : CType)
  | bconst (b : Bool) | rel (op : RelOp)
deriving DecidableEq, Repr

/-- An expression of any category. -/
inductive Expr (F : Type)
  | node (h : Head F) (args : List (Expr F))
deriving Repr

variable {F : Type}

namespace Expr

mutual
/-- Decidable equality of trees. -/
def decEq [DecidableEq F] : (a b : Expr F) → Decidable (a = b)
  | .node h as, .node g bs =>
    if h1 : h = g then
      match decEqs as bs with
      | isTrue h2 => isTrue (by rw [h1, h2])
      | isFalse h2 => isFalse (by intro e; cases e; exact h2 rfl)
    else isFalse (by intro e; cases e; exact h1 rfl)
def decEqs [DecidableEq F] : (a b : List (Expr F)) → Decidable (a = b)
  | [], [] => isTrue rfl
  | [], _ :: _ => isFalse (by intro e; cases e)
  | _ :: _, [] => isFalse (by intro e; cases e)
  | a :: as, b :: bs =>
    match decEq a b with
    | isTrue h1 =>
      match decEqs as bs with
      | isTrue h2 => isTrue (by rw [h1, h2])
      | isFalse h2 => isFalse (by intro e; cases e; exact h2 rfl)
    | isFalse h1 => isFalse (by intro e; cases e; exact h1 rfl)
end

instance [DecidableEq F] : DecidableEq (Expr F) := decEq

@[match_pattern] abbrev flt (f : F) : Expr F := .node (.flt f) []
@[match_pattern] abbrev int (n : Int) : Expr F := .node (.int n) []
@[match_pattern] abbrev rat (r : RatC) : Expr F := .node (.rat r) []
@[match_pattern] abbrev const (c : SymConst) : Expr F := .node (.const c) []
@[match_pattern] abbrev zoo : Expr F := .node .zoo []
@[match_pattern] abbrev imag : Expr F := .node .imag []
@[match_pattern] abbrev undef : Expr F := .node .undef []
@[match_pattern] abbrev var (name : String) (s : NSet) : Expr F := .node (.var name s) []
@[match_pattern] abbrev argVar (name : String) (i : Nat) (t : Prim) : Expr F := .node (.argVar name i t) []
@[match_pattern] abbrev uniq (i : Nat) (s : NSet) : Expr F := .node (.uniq i s) []
@[match_pattern] abbrev mul (ts : List (Expr F)) : Expr F := .node .mul ts
@[match_pattern] abbrev add (ts : List (Expr F)) : Expr F := .node .add ts
@[match_pattern] abbrev pow (b e : Expr F) : Expr F := .node .pow [b, e]
@[match_pattern] abbrev fn (f : BuiltIn) (as : List (Expr F)) : Expr F := .node (.fn f) as
@[match_pattern] abbrev symfn (name : String) (as : List (Expr F)) : Expr F := .node (.symfn name) as
@[match_pattern] abbrev uneval (e : Expr F) : Expr F := .node .uneval [e]
@[match_pattern] abbrev cond (c a b : Expr F) : Expr F := .node .cond [c, a, b]
@[match_pattern] abbrev iverson (c : Expr F) : Expr F := .node .iverson [c]
@[match_pattern] abbrev elem (c : Expr F) (i : Nat) : Expr F := .node (.elem i) [c]
@[match_pattern] abbrev deriv (f x : Expr F) (n : Nat) : Expr F := .node (.deriv n) [f, x]
@[match_pattern] abbrev subst (input target replacement : Expr F) : Expr F := .node .subst [input, target, replacement]
@[match_pattern] abbrev stop (e : Expr F) : Expr F := .node .stop [e]
@[match_pattern] abbrev bconst (b : Bool) : Expr F := .node (.bconst b) []
@[match_pattern] abbrev rel (op : RelOp) (l r : Expr F) : Expr F := .node (.rel op) [l, r]

/-- The head of a node. -/
def head : Expr F → Head F
  | .node h _ => h

/-- `children()` / iteration over a node. -/
def args : Expr F → List (Expr F)
  | .node _ as => as

end Expr

/-- Comparison and bit pattern of the floating point type (`double` in the code). -/
class FloatCmp (F : Type) where
  /-- `operator==` -/
  eq : F → F → Bool
  /-- `operator<` -/
  lt : F → F → Bool
  /-- the 64 bits copied by the hash -/
  bits : F → UInt64

/-! ## Order -/

/-- Position in `order_of_types`, `expression.cc:161-166`. Booleans, compounds and matrices are only compared with each other or inside an
`any_expression`, where the category comes first (scalar, matrix, compound, boolean: `any_expression.h:14,19`), then the type index
(`boolean_expression.cc:38-42`, `compound_expression.cc:42-46`). -/
def Head.rank : Head F → Nat
  | .flt _ => 0 | .int _ => 1 | .rat _ => 2 | .const _ => 3 | .zoo => 4 | .imag => 5
  | .var _ _ => 6 | .argVar _ _ _ => 7 | .uniq _ _ => 8
  | .mul => 9 | .add => 10 | .pow => 11 | .fn _ => 12 | .symfn _ => 13 | .uneval => 14 | .cond => 15 | .iverson => 16 | .elem _ => 17
  | .deriv _ => 18 | .subst => 19 | .stop => 20 | .undef => 21
  | .matrix _ _ => 22
  | .call _ => 23 | .typeArg _ _ => 24 | .construct _ => 25
  | .bconst _ => 26 | .rel _ => 27

/-- `order_by_comparison` on unsigned numbers. -/
def natOrder (a b : Nat) : Ordering := orderByComparison (fun x y : Nat => decide (x < y)) a b

/-- `order_struct<std::string>`, `utility/ordering.h:106-112`, and `string_view::compare` as used for function names,
`function_expressions.h:82-86`. -/
def strOrder (a b : String) : Ordering := lexOrder natOrder (a.toList.map Char.toNat) (b.toList.map Char.toNat)

/-- Position in an enumeration. -/
def SymConst.index : SymConst → Nat | .euler => 0 | .pi => 1
@[inherit_doc SymConst.index] def NSet.index : NSet → Nat | .positive => 0 | .nonNegative => 1 | .real => 2 | .complex => 3 | .unknown => 4
@[inherit_doc SymConst.index] def RelOp.index : RelOp → Nat | .lt => 0 | .le => 1 | .eq => 2
@[inherit_doc SymConst.index] def primIndex : Prim → Nat | .boolean => 0 | .integral => 1 | .floating => 2

/-- `string_from_built_in_function`, `enumerations.h:169-211`. -/
def BuiltIn.name : BuiltIn → String
  | .cos => "cos" | .sin => "sin" | .tan => "tan" | .arccos => "acos" | .arcsin => "asin" | .arctan => "atan"
  | .cosh => "cosh" | .sinh => "sinh" | .tanh => "tanh" | .arccosh => "acosh" | .arcsinh => "asinh" | .arctanh => "atanh"
  | .log => "log" | .exp => "exp" | .abs => "abs" | .signum => "sign" | .floor => "floor" | .arctan2 => "atan2"

/-- The part of `order_struct<T>` that looks at data other than the children, for two nodes of the same type:
`numeric_expressions.h:204-210,279-290,365-370`, `special_constants.h:113-119,198-204`, `variable.h:104-108,126-131,150-158`,
`function_expressions.h:82-86,187-190`, `derivative_expression.h:66-70`, `compound_expression_element.h:62-67` (index), `matrix.h:152-161`,
`relational.h`, `external_function_invocation.h:72-79` (name only), `custom_type_expressions.h:46-53` (names only), `114-120` (name only).
`rational` is the comparison of rational constants. -/
def headOrder [FloatCmp F] (rational : RatC → RatC → Res Ordering) : Head F → Head F → Res Ordering
  | .flt a, .flt b => .ok (orderByComparison FloatCmp.lt a b)
  | .int a, .int b => .ok (intOrder a b)
  | .rat a, .rat b => rational a b
  | .const a, .const b => .ok (natOrder a.index b.index)
  | .var a s, .var b t => .ok (andThenBy (strOrder a b) (natOrder s.index t.index))
  | .argVar a i p, .argVar b j q => .ok (andThenBy (andThenBy (strOrder a b) (natOrder i j)) (natOrder (primIndex p) (primIndex q)))
  | .uniq i s, .uniq j t => .ok (andThenBy (natOrder i j) (natOrder s.index t.index))
  | .fn f, .fn g => .ok (strOrder f.name g.name)
  | .symfn a, .symfn b => .ok (strOrder a b)
  | .elem i, .elem j => .ok (natOrder i j)
  | .deriv i, .deriv j => .ok (natOrder i j)
  | .matrix r c, .matrix r' c' => .ok (andThenBy (natOrder r r') (natOrder c c'))
  | .call f, .call g => .ok (strOrder f.name g.name)
  | .typeArg a t, .typeArg b u => .ok (andThenBy (strOrder a b) (strOrder t.name u.name))
  | .construct t, .construct u => .ok (strOrder t.name u.name)
  | .bconst a, .bconst b => .ok (natOrder a.toNat b.toNat)
  | .rel a, .rel b => .ok (natOrder a.index b.index)
  | _, _ => .ok .eq

/-- An element of a compound expression orders by the compound first and by the index second
(`compound_expression_element.h:62-67`); every other node orders by its own data first. -/
def Head.childrenFirst : Head F → Bool
  | .elem _ => true
  | _ => false

/-- One comparison after another, `comparison_chain::and_then_by`, `utility/ordering.h:154-167`: the second runs only if the first is equal. -/
def thenRes (a : Res Ordering) (b : Unit → Res Ordering) : Res Ordering :=
  match a with
  | .ok .eq => b ()
  | r => r

mutual
/-- `order_struct<scalar_expr>::compare`, `expression.cc:159-186`, and the analogous functions for the other categories. -/
def orderWith [FloatCmp F] (rational : RatC → RatC → Res Ordering) : Expr F → Expr F → Res Ordering
  | .node h as, .node g bs =>
    if h.rank < g.rank then .ok .lt
    else if g.rank < h.rank then .ok .gt
    else if h.childrenFirst then thenRes (orderLists rational as bs) (fun _ => headOrder rational h g)
    else thenRes (headOrder rational h g) (fun _ => orderLists rational as bs)
/-- `lexicographical_order`, `utility/ordering.h:70-89`, over children. -/
def orderLists [FloatCmp F] (rational : RatC → RatC → Res Ordering) : List (Expr F) → List (Expr F) → Res Ordering
  | [], [] => .ok .eq
  | [], _ :: _ => .ok .lt
  | _ :: _, [] => .ok .gt
  | a :: as, b :: bs => thenRes (orderWith rational a b) (fun _ => orderLists rational as bs)
end

/-- `determine_order`. Comparing two rational constants may overflow, which ends the process. -/
def order [FloatCmp F] (a b : Expr F) : Res Ordering := orderWith ratOrder a b

/-- Comparison of rational constants by cross-multiplication in unbounded integers. -/
def ratCmp (a b : RatC) : Ordering := intOrder (a.n * b.d) (b.n * a.d)

/-- The order when no comparison of rational constants overflows. -/
def exactOrder [FloatCmp F] (a b : Expr F) : Ordering :=
  match orderWith (fun r s => .ok (ratCmp r s)) a b with
  | .ok o => o
  | .error _ => .eq

/-! ## Identity -/

/-- Identity of the data of two nodes: `is_identical_struct<T>` for each type. Floats compare with `==` (`numeric_expressions.h:357-362`). -/
def headIdentical [FloatCmp F] [DecidableEq F] : Head F → Head F → Bool
  | .flt a, .flt b => FloatCmp.eq a b
  | h, g => decide (h = g)

mutual
/-- `is_identical_to`, `expression_variant.h:74-79`, and the `is_identical_struct` of each type. -/
def identical [FloatCmp F] [DecidableEq F] : Expr F → Expr F → Bool
  | .node h as, .node g bs => headIdentical h g && identicals as bs
def identicals [FloatCmp F] [DecidableEq F] : List (Expr F) → List (Expr F) → Bool
  | [], [] => true
  | [], _ :: _ => false
  | _ :: _, [] => false
  | a :: as, b :: bs => identical a b && identicals as bs
end

/-! ## Hash -/

/-- `hash_string_fnv`, `utility/hashing.h:19-27`. -/
def fnv (s : String) : UInt64 := s.toList.foldl (fun r c => (r * 0x100000001b3) ^^^ UInt64.ofNat c.toNat) 0xcbf29ce484222325

/-- `hash_combine`, `utility/hashing.h:32-35`. -/
def hashCombine (seed new : UInt64) : UInt64 := seed ^^^ (new + (0x9e3779b97f4a7c15 : UInt64) + (seed <<< (6 : UInt64)) + (seed >>> (2 : UInt64)))

/-- The 64 bits of a checked integer, `utility/checked_int.h:206-215`. -/
def hashInt (n : Int) : UInt64 := UInt64.ofInt n

mutual
/-- `hash_struct<type_variant>`, `types.h:35-40,78-83,206`, `types.cc:46-53`. -/
def hashTy : Ty → UInt64
  | .scalar t => hashCombine 0 (UInt64.ofNat (primIndex t))
  | .matrix r c => hashCombine 1 (hashCombine (UInt64.ofNat r) (UInt64.ofNat c))
  | .custom n fs => hashCombine 2 (hashFields (fnv n) fs)
/-- `hash_all` over struct fields, `types.h:272-277`. -/
def hashFields (seed : UInt64) : Fields → UInt64
  | .nil => seed
  | .cons n t r => hashFields (hashCombine seed (hashCombine (fnv n) (hashTy t))) r
end

/-- `custom_type::hash`, `types.cc:44-52`: the underlying type is left out. -/
def hashCType (t : CType) : UInt64 := hashFields (fnv t.name) t.fields

/-- `hash_struct<type_variant>`. -/
def hashFnTy : FnTy → UInt64
  | .scalar t => hashCombine 0 (UInt64.ofNat (primIndex t))
  | .matrix r c => hashCombine 1 (hashCombine (UInt64.ofNat r) (UInt64.ofNat c))
  | .custom t => hashCombine 2 (hashCType t)

/-- `external_function::hash`, `external_function.cc:12-18`. -/
def hashExtFn (f : ExtFn) : UInt64 :=
  hashCombine (f.args.foldl (fun s a => hashCombine s (hashCombine (fnv a.1) (hashFnTy a.2))) (fnv f.name)) (hashFnTy f.ret)

/-- Type index within its category (`expression.h:29-52`, `compound_expression.h:15-19`, `boolean_expression.h:15-18`). -/
def Head.typeIndex : Head F → UInt64
  | .add => 0 | .elem _ => 1 | .cond => 2 | .const _ => 3 | .deriv _ => 4 | .flt _ => 5 | .fn _ => 6 | .zoo => 7 | .imag => 8 | .int _ => 9
  | .iverson => 10 | .mul => 11 | .pow => 12 | .rat _ => 13 | .stop => 14 | .subst => 15 | .symfn _ => 16 | .undef => 17 | .uneval => 18
  | .var _ _ => 19 | .argVar _ _ _ => 20 | .uniq _ _ => 21
  | .matrix _ _ => 0 | .call _ => 0 | .typeArg _ _ => 1 | .construct _ => 2 | .bconst _ => 0 | .rel _ => 1

/-- Index of the category in `any_expression`, `any_expression.h:14`. -/
def Head.kind : Head F → UInt64
  | .matrix _ _ => 1
  | .call _ | .typeArg _ _ | .construct _ => 2
  | .bconst _ | .rel _ => 3
  | _ => 0

/-- Position of a built-in function in its enumeration. -/
def BuiltIn.index : BuiltIn → UInt64
  | .cos => 0 | .sin => 1 | .tan => 2 | .arccos => 3 | .arcsin => 4 | .arctan => 5 | .cosh => 6 | .sinh => 7 | .tanh => 8 | .arccosh => 9
  | .arcsinh => 10 | .arctanh => 11 | .exp => 12 | .log => 13 | .abs => 14 | .signum => 15 | .floor => 16 | .arctan2 => 17

/-- The seed to which the hashes of the children are combined, or the whole hash of a leaf: `hash_struct<T>` of each type. -/
def headSeed [FloatCmp F] : Head F → UInt64
  | .flt f => FloatCmp.bits f
  | .int n => hashInt n
  | .rat r => hashCombine (hashInt r.n) (hashInt r.d)
  | .const c => UInt64.ofNat c.index
  | .zoo => fnv "inf" | .imag => fnv "i" | .undef => fnv "undef"
  | .var n s => hashCombine (fnv n) (UInt64.ofNat s.index)
  | .argVar n i t => hashCombine (hashCombine (fnv n) (UInt64.ofNat i)) (UInt64.ofNat (primIndex t))
  | .uniq i s => hashCombine (UInt64.ofNat i) (UInt64.ofNat s.index)
  | .fn f => f.index
  | .symfn n => fnv n
  | .elem i => UInt64.ofNat i
  | .deriv n => UInt64.ofNat n
  | .matrix r c => hashCombine (UInt64.ofNat r) (UInt64.ofNat c)
  | .call f => hashExtFn f
  | .typeArg n t => hashCombine (fnv n) (hashCType t)
  | .construct t => hashCType t
  | .bconst b => UInt64.ofNat b.toNat
  | .rel op => UInt64.ofNat op.index
  | .mul | .add | .pow | .uneval | .cond | .iverson | .subst | .stop => 0

/-- Nodes whose hash is that of their only child: `stop_derivative.h:45-46`, `unevaluated.h:42-43`, `casts.h:36-39` (Iverson bracket). -/
def Head.forwardsHash : Head F → Bool
  | .uneval | .stop | .iverson => true
  | _ => false

/-- Arguments of an external function are `any_expression`s, whose hash includes the category. -/
def Head.anyChildren : Head F → Bool
  | .call _ => true
  | _ => false

mutual
/-- The hash cached in a node, `expression_variant.h:118-131`. -/
def hash [FloatCmp F] : Expr F → UInt64
  | .node h as => hashCombine h.typeIndex (hashChildren h.forwardsHash h.anyChildren (headSeed h) as)
/-- `hash_all` / `hash_args`, `utility/hashing.h:38-61`. -/
def hashChildren [FloatCmp F] (forwards any : Bool) (seed : UInt64) : List (Expr F) → UInt64
  | [] => seed
  | a :: as =>
    hashChildren forwards any (if forwards then hash a else hashCombine seed (if any then hashCombine a.head.kind (hash a) else hash a)) as
end

end Wf.Sym
