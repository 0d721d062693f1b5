import Verif.Sym.PipelineSpec
import Verif.Gen.RunSpec

/-!
# What a caller of the generated function should get

The signature and the names of a function, the arguments of a call, exact machines, and the values that the caller gets. For the run of the text see
`Gen/RunSpec.lean`, for the values of expressions `EvalSpec.lean`.
-/

namespace Wf.Sym
open Wf.Gen (AstInfo)
open Wf.Gen.Text (Machine Setting Scoping Naming Argument Cell Slot State Fn Rel Tree VarType PyOptions ReturnedAs returnedOutputs find)

variable {F : Type} [DecidableEq F] [FnSem F]

/-! ## Exact machines -/

/-- The library functions for the functions of expressions. -/
def BuiltIn.library : BuiltIn → Fn
  | .cos => .cos | .sin => .sin | .tan => .tan | .arccos => .acos | .arcsin => .asin | .arctan => .atan
  | .cosh => .cosh | .sinh => .sinh | .tanh => .tanh | .arccosh => .acosh | .arcsinh => .asinh | .arctanh => .atanh
  | .exp => .exp | .log => .ln | .abs => .abs | .signum => .sign | .floor => .floor | .arctan2 => .atan2

def RelOp.symbol : RelOp → Rel
  | .lt => .lt
  | .le => .le
  | .eq => .eq

/-- Operators and functions of the machine give the exact values, wherever there is one; conversions do not change a value of the type. -/
structure Exact (M : Machine ℂ) : Prop where
  fn : ∀ f zs z, fnVal f zs = some z → M.fn f.library zs = z
  sqrt : ∀ a z, powVal a (1 / 2) = some z → M.fn .sqrt [a] = z
  pow : ∀ a b z, powVal a b = some z → M.fn .pow [a, b] = z
  div : ∀ a b, b ≠ 0 → M.div a b = a / b
  cmp : ∀ op a b z, relVal op a b = some z → M.cmp op.symbol a b = z
  yes : M.truth 1 = true
  no : M.truth 0 = false
  float : ∀ z, M.cast .floating z = z
  int : ∀ p (n : ℤ), M.cast p n = n

/-! ## Functions -/

/-- The type of numbers in the text. -/
def primText : Gen.Prim → Gen.Text.Prim
  | .boolean => .boolean
  | .integral => .integral
  | .floating => .floating

/-- The output argument has the type of the output. -/
def Output.HasType : Output F → VarType → Prop
  | .scalar _ t, T => T = .scalar (primText t)
  | .matrix r c _, T => T = .matrix r c

/-- The naming is the one of a function with the arguments and the outputs. -/
structure Described (info : AstInfo) (N : Naming) (args : List Argument) (outs : List (Nat × Output F)) : Prop where
  signature : Signature info outs
  get : ∀ i, info.scalarGet i = false
  shape : ∀ t r c, N.shape t = some (r, c) ↔ t = matrixCode r c
  output : ∀ o ∈ outs, info.usage o.1 ≠ .returnValue → N.output o.1 ∈ args ∧
    (N.output o.1).direction = (if info.usage o.1 = .optional then .optional else .output) ∧ o.2.HasType (N.output o.1).type
  own : ∀ o ∈ outs, ∀ o' ∈ outs, info.usage o.1 ≠ .returnValue → info.usage o'.1 ≠ .returnValue → (N.output o.1).name = (N.output o'.1).name → o.1 = o'.1
  all : ∀ a ∈ args, a.direction ≠ .input → ∃ o ∈ outs, info.usage o.1 ≠ .returnValue ∧ N.output o.1 = a

/-- The text of an operand that is not computed: an element of an argument, or a constant. -/
inductive LeafText (args : List Argument) : Expr F → Tree → Prop
  | scalar {n p} : ⟨n, .scalar (primText p), .input⟩ ∈ args → LeafText args (.argVar n 0 p) (.arg n .scalar)
  | element {n r c i} : ⟨n, .matrix r c, .input⟩ ∈ args → i < r * c → LeafText args (.argVar n i .floating) (.elem (.arg n .matrix) (i / c) (i % c))
  | pi : LeafText args (.const .pi) .pi
  | euler : LeafText args (.const .euler) .euler
  | bool {b} : LeafText args (.bconst b) (.bool b)
  | flt {f negative digits} : LeafText args (.flt f) (.float negative digits)
  | rat {r negative digits} : LeafText args (.rat r) (.float negative digits)

/-- The text of the leaves of the program; the machine knows the literals and constants, with the values that are meant. -/
structure LeavesFit (M : Machine ℂ) (S : Setting) (o : PyOptions) (ρ : Env F) (N : Naming) (args : List Argument) (leaves : List (Expr F)) : Prop where
  text : ∀ k t, N.leaf k = some t → ∃ e, leaves[k]? = some e ∧ LeafText args e t
  literal : ∀ k t e, N.leaf k = some t → leaves[k]? = some e → (∀ n i p, e ≠ .argVar n i p) → ∃ x, M.con S o t = some x ∧ ∀ z, eval ρ e = some z → z = x

/-- Names that are given are different from each other and from the names of temporaries. -/
def NamesFit (T : Scoping) (N : Naming) (args : List Argument) : Prop :=
  (Gen.Text.givenNames T args).Nodup ∧ ∀ v, Gen.Text.tempName N.width v ∉ Gen.Text.givenNames T args

/-! ## Calls -/

/-- The caller passes values of the right types. -/
def Passed (args : List Argument) (input : String → Cell ℂ) : Prop :=
  ∀ a ∈ args, a.direction = .input →
    (∀ p, a.type = .scalar p → ∃ x, input a.name = .num x) ∧ ∀ r c, a.type = .matrix r c → ∃ l, input a.name = .mat r c l ∧ l.length = r * c

/-- An element of an argument. -/
def argElement (input : String → Cell ℂ) (n : String) (i : Nat) : Option ℂ :=
  match input n with
  | .num x => if i = 0 then some x else none
  | .mat _ _ l => l[i]?
  | _ => none

/-- In expressions the arguments have the values that the caller passes; elements of matrices are floating-point numbers. -/
def Assigns (ρ : Env F) (args : List Argument) (input : String → Cell ℂ) : Prop :=
  ∀ a ∈ args, a.direction = .input → (∀ p, a.type = .scalar (primText p) → ρ.leaf (.argVar a.name 0 p) = argElement input a.name 0) ∧
    ∀ r c, a.type = .matrix r c → ∀ i, ρ.leaf (.argVar a.name i .floating) = argElement input a.name i

/-- What the output should be: the value of its expression, or the matrix of the values of its elements. -/
def CellOf (ρ : Env F) : Output F → Cell ℂ → Prop
  | .scalar e t, c => ∃ x, eval ρ e = some x ∧ HasTy t x ∧ c = .num x
  | .matrix r k es, c => ∃ zs, List.Forall₂ (fun e z => eval ρ e = some z) es zs ∧ c = .mat r k zs

/-- The object contains the number or matrix. -/
def SlotIs : Cell ℂ → Slot ℂ → Prop
  | .num x, .num y => y = some x
  | .mat r c l, .mat r' c' l' => r' = r ∧ c' = c ∧ l' = l.map some
  | _, _ => False

/-- The caller gets the number or matrix for the output: as the value that is returned, as one of the values that are returned (Python without output
arguments), or in the object that it passed. -/
def Obtains (T : Scoping) (N : Naming) (info : AstInfo) (args : List Argument) (key : Nat) (c : Cell ℂ) (s : State ℂ) : Prop :=
  if info.usage key = .returnValue then ∃ cs, s.result = some (c :: cs) ∧ cs.length = (returnedOutputs T args).length
  else if T = .python false then ReturnedAs T args (N.output key).name s (· = c)
  else ∃ slot, find (N.output key).name s.heap = some slot ∧ SlotIs c slot

/-- The caller gets all outputs that it wants, and `None` (in Python without output arguments) for those that it does not want. -/
def GetsAll (T : Scoping) (N : Naming) (info : AstInfo) (args : List Argument) (wanted : String → Bool) (ρ : Env F) (outs : List (Nat × Output F)) (s : State ℂ) :
    Prop :=
  ∀ o ∈ outs,
    ((info.usage o.1 = .optional → wanted (N.output o.1).name = true) → ∀ c, CellOf ρ o.2 c → Obtains T N info args o.1 c s) ∧
    (info.usage o.1 = .optional → wanted (N.output o.1).name = false → T = .python false → ReturnedAs T args (N.output o.1).name s (· = .none))

/-- The machine and the names are as the generated text needs them. -/
structure Usable (M : Machine ℂ) (S : Setting) (N : Naming) (args : List Argument) : Prop where
  exact : Exact M
  lawful : M.Lawful
  names : NamesFit S.T N args
  plain : Gen.Text.PlainNames M S N args

/-- The function is called with arguments for which the expressions mean what they say: the arguments have their types, powers are rewritten by laws, and
reciprocals, `floor` and `signum` are used where they have their meaning (`NotesOk`). -/
structure Called (M : Machine ℂ) (S : Setting) (o : PyOptions) (N : Naming) (args : List Argument) (nK m n : Nat) (outs : List (Nat × Output F)) (s : Low F)
    (ρ : Env F) (input : String → Cell ℂ) : Prop where
  typed : TypedEnv ρ
  laws : LawfulLowering ρ nK m n outs s
  notes : NotesOk ρ s.notes
  leaves : LeavesFit M S o ρ N args s.leaves
  passed : Passed args input
  assigns : Assigns ρ args input

end Wf.Sym
