import Verif.Gen.NameModel
import Verif.Gen.AstSpec

/-!
# What statements with names do in the target languages

In a function of the target language there is one name space: arguments, outputs and local variables are all found by their name. The rules for names are
the ones of the languages:

* C++ ([basic.scope.block], [basic.scope.declarative]): a name is visible from its declaration (which includes the initialiser) to the end of the block, and
  hides the same name of the blocks around. It is an error to declare a name twice in one block; the parameters belong to the outermost block.
* Rust (reference, "Let statements"): `let` makes a new variable, which hides an older one with the same name up to the end of the block.
* Python (reference, "Naming and binding"): a function has one block. An assignment makes a variable or changes the one that is there.

The objects of the outputs are in the variables with the names of the outputs. Values that are not of the right kind (a matrix where a number is needed) are
an error. `if let Some(x) = x` of Rust makes a new name for the same object; it is not distinguished from the old one here. The size of an array that is given
for an output of Python is assumed to be right.
-/

namespace Wf.Gen.Text

/-- The languages, with the options that concern names: views of matrices (C++), outputs as arguments (Python). -/
inductive Scoping
  | cpp (span : Bool)
  | rust
  | python (outputArguments : Bool)
deriving DecidableEq, Repr

/-- What a variable holds: no value yet, nothing (`None` or a null pointer), a switch, a number, or a matrix with its elements row by row. -/
inductive Cell (V : Type)
  | unset
  | none
  | switch (b : Bool)
  | num (x : V)
  | mat (rows cols : Nat) (l : List V)

/-- Variables, the innermost ones first. -/
abbrev Vars (V : Type) := List (String × Cell V)

section
variable {V : Type}

/-- The innermost variable with a name. -/
def find {α : Type} (n : String) : List (String × α) → Option α
  | [] => .none
  | p :: vars => if p.1 = n then some p.2 else find n vars

/-- Change the innermost variable with a name. -/
def put {α : Type} (n : String) (c : α) : List (String × α) → List (String × α)
  | [] => []
  | p :: vars => if p.1 = n then (n, c) :: vars else p :: put n c vars

/-- Change a variable; in Python, make it if there is none. -/
def setVar {α : Type} (T : Scoping) (n : String) (c : α) (vars : List (String × α)) : Option (List (String × α)) :=
  match find n vars, T with
  | some _, _ => some (put n c vars)
  | .none, .python _ => some ((n, c) :: vars)
  | .none, _ => .none

/-- Give a value to a variable that was declared without one. Variables of Rust are not `mut`, so it is an error to assign one that has a value, and the
variables of C++ that are declared with a value are `const`; C++ would allow to assign the others again, which is taken for an error as well. -/
def giveVar (T : Scoping) (n : String) (c : Cell V) (vars : Vars V) : Option (Vars V) :=
  match T, find n vars with
  | .python _, _ => setVar T n c vars
  | _, some .unset => some (put n c vars)
  | _, _ => .none

/-- Declare a variable; the last `outer` variables belong to the blocks around. -/
def newVar {α : Type} (T : Scoping) (outer : Nat) (n : String) (c : α) (vars : List (String × α)) : Option (List (String × α)) :=
  match T with
  | .cpp _ => if n ∈ (vars.take (vars.length - outer)).map (·.1) then .none else some ((n, c) :: vars)
  | .rust => some ((n, c) :: vars)
  | .python _ => setVar T n c vars

/-- The variables after a block. -/
def leaveBlock {α : Type} (T : Scoping) (before after : List (String × α)) : List (String × α) :=
  match T with
  | .python _ => after
  | _ => after.drop (after.length - before.length)

def Cell.number : Cell V → Option V
  | .num x => some x
  | _ => .none

def Cell.element (i j : Nat) : Cell V → Option V
  | .mat r c l => if i < r ∧ j < c then l[i * c + j]? else .none
  | _ => .none

/-- The variable of an argument: in C++ with views, a matrix is reached through its view. -/
def Scoping.argVar (T : Scoping) (n : String) (matrix : Bool) : String :=
  match T with
  | .cpp true => if matrix then "_" ++ n else n
  | _ => n

/-- The number of a number type in the operations. -/
def Prim.number : Prim → Nat
  | .boolean => 0
  | .integral => 1
  | .floating => 2

/-- The number of a comparison. -/
def Rel.number : Rel → Nat
  | .lt => 0
  | .le => 1
  | .eq => 2

/-- The number of a function. -/
def Std.number : Std → Nat
  | .cos => 0
  | .sin => 1
  | .tan => 2
  | .acos => 3
  | .asin => 4
  | .atan => 5
  | .cosh => 6
  | .sinh => 7
  | .tanh => 8
  | .acosh => 9
  | .asinh => 10
  | .atanh => 11
  | .log => 12
  | .exp => 13
  | .sqrt => 14
  | .abs => 15
  | .signum => 16
  | .floor => 17
  | .atan2 => 18
  | .powi => 19
  | .powf => 20

variable [Arith V]

mutual
/-- The value of an expression. `I` interprets the operations, `con` the constants that are not integers. -/
def Tree.value (T : Scoping) (I : Interp V) (con : Tree → Option V) (vars : Vars V) : Tree → Option V
  | .var n => (find n vars).bind Cell.number
  | .arg n k => (find (T.argVar n (k = .matrix)) vars).bind Cell.number
  | .int n => some (I.f (.load (.int n)) [])
  | .add l => (values T I con vars l).map (I.f .add)
  | .mul l => (values T I con vars l).map (I.f .mul)
  | .div a b =>
    match a.value T I con vars, b.value T I con vars with
    | some x, some y => some (I.f .div [x, y])
    | _, _ => .none
  | .neg a => (a.value T I con vars).map fun x => I.f .neg [x]
  | .cmp r a b =>
    match a.value T I con vars, b.value T I con vars with
    | some x, some y => some (I.f (.compare r.number) [x, y])
    | _, _ => .none
  | .cond c a b =>
    match c.value T I con vars, a.value T I con vars, b.value T I con vars with
    | some z, some x, some y => some (I.f .cond [z, x, y])
    | _, _, _ => .none
  | .cast t a => (a.value T I con vars).map fun x => I.f (.cast t.number) [x]
  | .std f l => (values T I con vars l).map (I.f (.callStd f.number))
  | .elem (.arg n k) i j => (find (T.argVar n (k = .matrix)) vars).bind (Cell.element i j)
  | .float s d => con (.float s d)
  | .bool b => con (.bool b)
  | .euler => con .euler
  | .pi => con .pi
  | _ => .none

def values (T : Scoping) (I : Interp V) (con : Tree → Option V) (vars : Vars V) : List Tree → Option (List V)
  | [] => some []
  | t :: ts =>
    match t.value T I con vars, values T I con vars ts with
    | some x, some xs => some (x :: xs)
    | _, _ => .none
end

/-- The value of a right hand side. -/
def Value.cell (T : Scoping) (I : Interp V) (con : Tree → Option V) (vars : Vars V) : Value → Option (Cell V)
  | .expr t => (t.value T I con vars).map .num
  | .matrix r c l => (values T I con vars l).map (.mat r c)
  | .struct _ _ => .none

/-- The variables and the value that was returned. -/
structure Mem (V : Type) where
  vars : Vars V
  result : Option (Cell V)

/-- Write an output: a new value for the object of the caller, or in Python without output arguments for a local variable. -/
def write (T : Scoping) (n : String) (c : Cell V) (vars : Vars V) : Option (Vars V) :=
  match T with
  | .python false => setVar T n c vars
  | _ =>
    match find n vars with
    | .none => .none
    | some .none => .none
    | some _ => some (put n c vars)

/-- The output is wanted: an object is given or the switch is on. -/
def wants (T : Scoping) (n : String) (matrix : Bool) (vars : Vars V) : Option Bool :=
  match T with
  | .python false =>
    match find ("compute_" ++ n) vars with
    | some (.switch b) => some b
    | _ => .none
  | T =>
    match find (T.argVar n matrix) vars with
    | some .none => some false
    | some _ => some true
    | .none => .none

mutual
/-- Run a statement. -/
def Stm.exec (T : Scoping) (I : Interp V) (con : Tree → Option V) (truth : V → Bool) : Nat → Stm → Mem V → Option (Mem V)
  | _, .comment _, m => some m
  | outer, .declare n _ .none, m => (newVar T outer n (if T matches .python _ then .none else .unset) m.vars).map fun vars => { m with vars := vars }
  | outer, .declare n _ (some v), m =>
    match T with
    | .cpp _ =>
      match newVar T outer n .unset m.vars with
      | some vars => (v.cell T I con vars).map fun c => { m with vars := put n c vars }
      | .none => .none
    | _ =>
      match v.cell T I con m.vars with
      | some c => (newVar T outer n c m.vars).map fun vars => { m with vars := vars }
      | .none => .none
  | _, .assign n v, m =>
    match v.cell T I con m.vars with
    | some c => (giveVar T n c m.vars).map fun vars => { m with vars := vars }
    | .none => .none
  | _, .output n _ v, m =>
    match v.cell T I con m.vars with
    | some c => (write T n c m.vars).map fun vars => { m with vars := vars }
    | .none => .none
  | _, .outputMatrix n _ r c l, m =>
    match values T I con m.vars l with
    | some xs => (write T (T.argVar n true) (.mat r c xs) m.vars).map fun vars => { m with vars := vars }
    | .none => .none
  | _, .ret v, m => (v.cell T I con m.vars).map fun c => { m with result := some c }
  | _, .branch c t e, m =>
    match c.value T I con m.vars with
    | some x =>
      match if truth x then execAll T I con truth m.vars.length t m else execAll T I con truth m.vars.length e m with
      | some m' => some { m' with vars := leaveBlock T m.vars m'.vars }
      | .none => .none
    | .none => .none
  | _, .optional n t body, m =>
    match wants T n (t matches .matrix _ _) m.vars with
    | some true =>
      match execAll T I con truth m.vars.length body m with
      | some m' => some { m' with vars := leaveBlock T m.vars m'.vars }
      | .none => .none
    | some false =>
      match T with
      | .python false => (setVar T n .none m.vars).map fun vars => { m with vars := vars }
      | _ => some m
    | .none => .none

/-- Run statements in order, until the function returns. -/
def execAll (T : Scoping) (I : Interp V) (con : Tree → Option V) (truth : V → Bool) : Nat → List Stm → Mem V → Option (Mem V)
  | _, [], m => some m
  | outer, s :: ss, m =>
    if m.result.isSome then some m
    else match s.exec T I con truth outer m with
      | some m' => execAll T I con truth outer ss m'
      | .none => .none
end

/-! ## The start of a function -/

/-- What the caller passes for an argument: a value, or an object for the result if there is one. -/
def argCell (input : String → Cell V) (wanted : String → Bool) (a : Argument) : Cell V :=
  match a.direction with
  | .input => input a.name
  | .output => .unset
  | .optional => if wanted a.name then .unset else .none

/-- The variables at the start of a function: the parameters, and the views of matrices. -/
def startVars (T : Scoping) (args : List Argument) (input : String → Cell V) (wanted : String → Bool) : Vars V :=
  match T with
  | .cpp true =>
    args.map (fun a => (a.name, argCell input wanted a)) ++ (args.filter (·.type.isMatrix)).map fun a => ("_" ++ a.name, argCell input wanted a)
  | .python false =>
    (args.filter (·.direction = .input)).map (fun a => (a.name, input a.name)) ++
      (args.filter (·.direction = .optional)).map fun a => ("compute_" ++ a.name, .switch (wanted a.name))
  | _ => args.map fun a => (a.name, argCell input wanted a)

/-- The names that are given to arguments, outputs, views and switches. -/
def givenNames (T : Scoping) (args : List Argument) : List String :=
  match T with
  | .cpp true => args.map (·.name) ++ (args.filter (·.type.isMatrix)).map fun a => "_" ++ a.name
  | .python false => args.map (·.name) ++ (args.filter (·.direction = .optional)).map fun a => "compute_" ++ a.name
  | _ => args.map (·.name)

/-- The letter `v`, followed by one or more digits. -/
def LikeTemporary (n : String) : Prop := ∃ ds : List Char, ds ≠ [] ∧ (∀ c ∈ ds, c.isDigit = true) ∧ n = String.ofList ('v' :: ds)

/-- The cell holds the value `x` of an output. -/
def Holds (N : Naming) (I : Interp V) (x : V) : Cell V → Prop
  | .num y => y = x
  | .mat r c l => ∃ t, N.shape t = some (r, c) ∧ x = I.f (.construct t) l
  | _ => False

/-- The variable that holds an output. -/
def outVar (T : Scoping) (a : Argument) : String := T.argVar a.name a.type.isMatrix

/-- The names fit the program: no name is given twice, none is the name of a temporary, what is read is passed by the caller, and outputs have arguments. -/
structure Named (T : Scoping) (N : Naming) (I : Interp V) (con : Tree → Option V) (truth : V → Bool) (args : List Argument) (input : String → Cell V)
    (wanted : String → Bool) (usage : Nat → Usage) (keys : Nat → Prop) : Prop where
  distinct : (givenNames T args).Nodup
  noClash : ∀ v, tempName N.width v ∉ givenNames T args
  leaf : ∀ k t, N.leaf k = some t → t.value T I con (startVars T args input wanted) = some (I.f (.load (.other k)) [])
  arg : ∀ key, keys key → N.output key ∈ args ∧ (N.output key).direction = if usage key = .optional then .optional else .output
  retKey : ∀ key, usage key = .returnValue → ¬ keys key
  own : ∀ key key', keys key → keys key' → (N.output key).name = (N.output key').name → key = key'
  optional : ∀ key, keys key → usage key = .optional → wanted (N.output key).name = truth (I.f (.outputRequired key) [])

/-- An output that the program writes, not as the value that is returned. -/
def _root_.Wf.Gen.Written (g : Graph) (usage : Nat → Usage) (key : Nat) : Prop := usage key ≠ .returnValue ∧ ∃ v ∈ g.ops, (g.node v).op = .save key

/-- The caller gets the value `x` of an output: as the value that is returned, or in the object for the output. An optional output that is not wanted is
nothing. -/
def Delivered (T : Scoping) (N : Naming) (I : Interp V) (usage : Nat → Usage) (wanted : String → Bool) (key : Nat) (x : V) (e : Mem V) : Prop :=
  match usage key with
  | .returnValue => ∃ c, e.result = some c ∧ Holds N I x c
  | .output => ∃ c, find (outVar T (N.output key)) e.vars = some c ∧ Holds N I x c
  | .optional => if wanted (N.output key).name then ∃ c, find (outVar T (N.output key)) e.vars = some c ∧ Holds N I x c
    else find (outVar T (N.output key)) e.vars = some .none

mutual
/-- The keys of a statement are used as the signature says. -/
def _root_.Wf.Gen.Stmt.Keyed (usage : Nat → Usage) (keys : Nat → Prop) : Stmt → Prop
  | .output key _ => usage key ≠ .returnValue ∧ keys key
  | .ret key _ => usage key = .returnValue
  | .branch _ t e => AllKeyed usage keys t ∧ AllKeyed usage keys e
  | .optional key t => usage key = .optional ∧ keys key ∧ AllKeyed usage keys t
  | _ => True

def AllKeyed (usage : Nat → Usage) (keys : Nat → Prop) : List Stmt → Prop
  | [] => True
  | s :: ss => s.Keyed usage keys ∧ AllKeyed usage keys ss
end

end

end Wf.Gen.Text
