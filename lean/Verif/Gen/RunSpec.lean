import Verif.Gen.NameSpec
import Verif.Gen.StmtTextSpec

/-!
# What the text of a function does

The syntax trees of `StmtTextSpec.lean` are run, in each of the languages. `Machine` gives the meaning of the operators and functions of the libraries; numbers
are exact. The rules for names are the ones of `NameSpec.lean`. What is assumed of the languages and libraries:

* C++: a parameter that is a reference (`T&`) is another name for an object of the caller, and so is a view made from it; a pointer has to be followed with
  `*` or `->`, and a null pointer or an empty view is `false` as a Boolean. `m(i, j)` is an element of a matrix. A filled matrix has as many elements as its
  type says.
* Rust: a `&mut` has to be followed with `*`, or by a call of the method `set`. An `Option<&mut T>` has to be opened with `if let` first.
* Python: an array is an object of the caller, and `reshape` makes a view of it (NumPy: if the array is contiguous). `m[i, j]` is an element.

Not modelled: the types of numbers (an assignment to a variable of another type converts the number in C++, and is an error in Rust), moves and borrows of
Rust, rounding, overflow.
-/

namespace Wf.Gen.Text

/-- What a name of the text stands for: a value, an object of the caller (another name for it, or a pointer to it), or `Some` with a pointer. -/
inductive Obj (K : Type)
  | val (c : Cell K)
  | alias (a : String)
  | ptr (a : String)
  | option (a : String)

/-- An object of the caller: a number or a matrix with its elements row by row. `none` has not been written. -/
inductive Slot (K : Type)
  | num (x : Option K)
  | mat (rows cols : Nat) (l : List (Option K))

/-- Variables, objects of the caller (called by the names of the parameters), and what has been returned. -/
structure State (K : Type) where
  vars : List (String × Obj K)
  heap : List (String × Slot K)
  result : Option (List (Cell K))

/-- The meaning of literals and constants, operators, conversions and functions. -/
structure Machine (K : Type) where
  lit : String → Option K
  truth : K → Bool
  div : K → K → K
  cmp : Rel → K → K → K
  cast : Prim → K → K
  fn : Fn → List K → K

/-- The language and its options; `mod` is the module of the functions in Python (`np` or `jnp`). -/
structure Setting where
  T : Scoping
  mod : String

def Scoping.lang : Scoping → Lang
  | .cpp _ => .cpp
  | .rust => .rust
  | .python _ => .python

/-- A table of names in a module. -/
def inModule {α : Type} (mod : String) (table : List (String × α)) : List (String × α) := table.map fun p => (mod ++ "." ++ p.1, p.2)

section
variable {K : Type} [CommRing K]

def Machine.bin (M : Machine K) : BinOp → K → K → K
  | .add, x, y => x + y
  | .sub, x, y => x - y
  | .mul, x, y => x * y
  | .div, x, y => M.div x y
  | .lt, x, y => M.cmp .lt x y
  | .le, x, y => M.cmp .le x y
  | .eq, x, y => M.cmp .eq x y

/-- Call a function of a library. -/
def Machine.call (M : Machine K) (S : Setting) (f : String) (xs : List K) : Option K :=
  match S.T with
  | .cpp _ => (find f cmath).map fun g => M.fn g xs
  | .rust => none
  | .python _ =>
    if f = S.mod ++ ".where" then
      match xs with
      | [c, x, y] => some (if M.truth c then x else y)
      | _ => none
    else match find f (inModule S.mod (numberTypes .python)), xs with
      | some p, [x] => some (M.cast p x)
      | some _, _ => none
      | none, xs => (find f (inModule S.mod numpyFunctions)).map fun g => M.fn g xs

/-- The name belongs to a library. -/
def Setting.isLibrary (S : Setting) (f : String) : Bool :=
  match S.T with
  | .cpp _ => (find f cmath).isSome
  | .rust => false
  | .python _ => f = S.mod ++ ".where" || (find f (inModule S.mod (numberTypes .python))).isSome || (find f (inModule S.mod numpyFunctions)).isSome

def Obj.number : Obj K → Option K
  | .val c => c.number
  | _ => none

def Obj.element (i j : Nat) : Obj K → Option K
  | .val c => c.element i j
  | _ => none

/-- Two literals. -/
def indices : List E → Option (Nat × Nat)
  | [.int i _, .int j _] => some (i, j)
  | _ => none

/-- The number of elements of an array. -/
def State.size (s : State K) (n : String) : Option K :=
  match find n s.vars with
  | some (.ptr a) =>
    match find a s.heap with
    | some (.mat r c _) => some ((r * c : Nat) : K)
    | _ => none
  | _ => none

/-- An element of the matrix with a name. -/
def State.element (s : State K) (n : String) (l : List E) : Option K :=
  match find n s.vars, indices l with
  | some o, some p => o.element p.1 p.2
  | _, _ => none

/-- An element of the matrix that an expression is the name of. -/
def State.elementOf (s : State K) (a : E) (l : List E) : Option K :=
  match a with
  | .atom n => s.element n l
  | _ => none

mutual
/-- The value of an expression. -/
def E.value (M : Machine K) (S : Setting) (s : State K) : E → Option K
  | .atom n =>
    match M.lit n with
    | some x => some x
    | none => (find n s.vars).bind Obj.number
  | .int n _ => some (n : K)
  | .bin op a b =>
    match a.value M S s, b.value M S s with
    | some x, some y => some (M.bin op x y)
    | _, _ => none
  | .neg a => (a.value M S s).map fun x => -x
  | .cond c a b =>
    match c.value M S s with
    | some z => if M.truth z then a.value M S s else b.value M S s
    | none => none
  | .cast t a =>
    match find t (numberTypes S.T.lang) with
    | some p => (a.value M S s).map (M.cast p)
    | none => none
  | .app (.atom f) l =>
    if S.isLibrary f then (evals M S s l).bind (M.call S f) else if S.T.lang = .cpp then s.element f l else none
  | .app (.field a m) l =>
    if S.T = .rust then
      if m = "get" then s.elementOf a l
      else match find m rustMethods, a.value M S s, evals M S s l with
        | some g, some x, some xs => some (M.fn g (x :: xs))
        | _, _, _ => none
    else none
  | .field (.atom n) m => if S.T.lang = .python ∧ m = "size" then s.size n else none
  | .index (.atom n) l => if S.T.lang = .python then s.element n l else none
  | _ => none

def evals (M : Machine K) (S : Setting) (s : State K) : List E → Option (List K)
  | [] => some []
  | e :: es =>
    match e.value M S s, evals M S s es with
    | some x, some xs => some (x :: xs)
    | _, _ => none
end

/-- Digits, and what follows them. -/
def natPrefix : List Char → Nat × List Char := fun l => (Nat.ofDigitChars 10 (l.takeWhile Char.isDigit) 0, l.dropWhile Char.isDigit)

/-- The size of the matrices of a C++ type `Eigen::Matrix<Scalar, r, c>`. -/
def eigenSize (t : String) : Option (Nat × Nat) :=
  if "Eigen::Matrix<Scalar, ".toList.isPrefixOf t.toList then
    let p := natPrefix (t.toList.drop "Eigen::Matrix<Scalar, ".toList.length)
    let q := natPrefix (p.2.drop 2)
    if p.2.take 2 = [',', ' '] ∧ q.2 = ['>'] then some (p.1, q.1) else none
  else none

/-- The value of a name on the right hand side of an assignment. -/
def State.named (M : Machine K) (S : Setting) (s : State K) (n : String) : Option (Cell K) :=
  match M.lit n with
  | some x => some (.num x)
  | none =>
    if S.T.lang = .python ∧ n = "None" then some .none
    else match find n s.vars with
      | some (.val .unset) => none
      | some (.val c) => some c
      | _ => none

/-- The value of a right hand side. -/
def V.cell (M : Machine K) (S : Setting) (s : State K) : V → Option (Cell K)
  | .e (.atom n) => s.named M S n
  | .e x => (x.value M S s).map .num
  | .matrix t l =>
    match S.T, eigenSize t with
    | .cpp _, some (r, c) => if l.length = r * c then (evals M S s l).map (.mat r c) else none
    | _, _ => none
  | .array f l r c => if S.T.lang = .python ∧ f = S.mod ++ ".array" ∧ l.length = r * c then (evals M S s l).map (.mat r c) else none
  | .object _ _ => none

def cells (M : Machine K) (S : Setting) (s : State K) : List V → Option (List (Cell K))
  | [] => some []
  | v :: vs =>
    match v.cell M S s, cells M S s vs with
    | some c, some cs => some (c :: cs)
    | _, _ => none

/-- Write a number to an object of the caller. -/
def State.write (s : State K) (a : String) (c : Cell K) : Option (State K) :=
  match find a s.heap, c with
  | some (.num _), .num x => some { s with heap := put a (.num (some x)) s.heap }
  | _, _ => none

/-- Write an element of a matrix of the caller. -/
def State.writeElement (s : State K) (a : String) (l : List E) (c : Cell K) : Option (State K) :=
  match find a s.heap, indices l, c with
  | some (.mat rows cols es), some (i, j), .num x =>
    if i < rows ∧ j < cols then some { s with heap := put a (.mat rows cols (es.set (i * cols + j) (some x))) s.heap } else none
  | _, _, _ => none

/-- Write all elements of a matrix of the caller, seen as a matrix with `r` rows and `k` columns. -/
def State.writeAll (s : State K) (a : String) (r k : Nat) (c : Cell K) : Option (State K) :=
  match find a s.heap, c with
  | some (.mat rows cols _), .mat r' k' xs =>
    if rows * cols = r * k ∧ r' = r ∧ k' = k then some { s with heap := put a (.mat rows cols (xs.map some)) s.heap } else none
  | _, _ => none

/-- Give a value to a local variable that was declared without one (C++ and Rust; see `giveVar`). -/
def State.give (s : State K) (n : String) (c : Cell K) : Option (State K) :=
  match find n s.vars with
  | some (.val .unset) => some { s with vars := put n (.val c) s.vars }
  | _ => none

/-- Assign a value. -/
def Place.store (S : Setting) (s : State K) (p : Place) (c : Cell K) : Option (State K) :=
  match S.T, p with
  | .cpp _, .e (.atom n) =>
    match find n s.vars with
    | some (.alias a) => s.write a c
    | _ => s.give n c
  | .cpp _, .e (.app (.atom n) l) =>
    match find n s.vars with
    | some (.alias a) => s.writeElement a l c
    | _ => none
  | .cpp _, .deref n =>
    match find n s.vars with
    | some (.ptr a) => s.write a c
    | _ => none
  | .cpp _, .arrow n f l =>
    match find n s.vars with
    | some (.ptr a) => if f = "operator()" then s.writeElement a l c else none
    | _ => none
  | .rust, .e (.atom n) => s.give n c
  | .rust, .deref n =>
    match find n s.vars with
    | some (.ptr a) => s.write a c
    | _ => none
  | .python b, .e (.atom n) => (setVar (.python b) n (.val c) s.vars).map fun vars => { s with vars := vars }
  | .python _, .slice (.app (.field (.atom n) f) l) =>
    match find n s.vars, indices l with
    | some (.ptr a), some (r, k) => if f = "reshape" then s.writeAll a r k c else none
    | _, _ => none
  | _, _ => none

/-- A statement that is a call: `n.set(i, j, x)` in Rust. -/
def E.perform (M : Machine K) (S : Setting) (s : State K) (e : E) : Option (State K) :=
  match S.T, e with
  | .rust, .app (.field (.atom n) f) [i, j, x] =>
    match find n s.vars, x.value M S s with
    | some (.ptr a), some x => if f = "set" then s.writeElement a [i, j] (.num x) else none
    | _, _ => none
  | _, _ => none

/-- A pointer or view as a Boolean. -/
def Obj.given : Obj K → Option Bool
  | .val .none => some false
  | .alias _ => some true
  | .ptr _ => some true
  | _ => none

/-- A condition, with the variables that it makes. -/
def Cond.test (M : Machine K) (S : Setting) (s : State K) (c : Cond) : Option (Bool × List (String × Obj K)) :=
  match S.T, c with
  | .cpp _, .e (.cast t (.atom n)) =>
    match (E.cast t (.atom n)).value M S s with
    | some x => some (M.truth x, [])
    | none => if t = "bool" then ((find n s.vars).bind Obj.given).map fun b => (b, []) else none
  | .python _, .e (.atom n) =>
    match (E.atom n).value M S s with
    | some x => some (M.truth x, [])
    | none =>
      match find n s.vars with
      | some (.val (.switch b)) => some (b, [])
      | _ => none
  | .rust, .isSome x y =>
    match find y s.vars with
    | some (.option a) => some (true, [(x, .ptr a)])
    | some (.val .none) => some (false, [])
    | _ => none
  | .python _, .notNone x =>
    match find x s.vars with
    | some (.val .none) => some (false, [])
    | some _ => some (true, [])
    | none => none
  | _, .e x => (x.value M S s).map fun x => (M.truth x, [])
  | _, _ => none

mutual
/-- Run a statement; the last `outer` variables belong to the blocks around. -/
def St.run (M : Machine K) (S : Setting) : Nat → St → State K → Option (State K)
  | outer, .declare _ _ n none, s =>
    match S.T with
    | .python _ => none
    | T => (newVar T outer n (.val .unset) s.vars).map fun vars => { s with vars := vars }
  | outer, .declare _ _ n (some v), s =>
    match S.T with
    | .cpp _ =>
      match newVar S.T outer n (.val .unset) s.vars with
      | some vars => (v.cell M S { s with vars := vars }).map fun c => { s with vars := put n (.val c) vars }
      | none => none
    | .rust =>
      match v.cell M S s with
      | some c => (newVar S.T outer n (.val c) s.vars).map fun vars => { s with vars := vars }
      | none => none
    | .python _ => none
  | _, .assign p v, s => (v.cell M S s).bind (p.store S s)
  | _, .expr e, s => e.perform M S s
  | _, .ret l, s => (cells M S s l).map fun cs => { s with result := some cs }
  | _, .tail v, s => (v.cell M S s).map fun c => { s with result := some [c] }
  | _, .ite c t e, s =>
    match c.test M S s with
    | some (true, new) =>
      (runSts M S s.vars.length t { s with vars := new ++ s.vars }).map fun s' => { s' with vars := leaveBlock S.T s.vars s'.vars }
    | some (false, _) => (runSts M S s.vars.length e s).map fun s' => { s' with vars := leaveBlock S.T s.vars s'.vars }
    | none => none
  | _, .assert e _, s =>
    match e.value M S s with
    | some x => if M.truth x then some s else none
    | none => none

/-- Run statements in order, until the function returns. -/
def runSts (M : Machine K) (S : Setting) : Nat → List St → State K → Option (State K)
  | _, [], s => some s
  | outer, x :: xs, s =>
    if s.result.isSome then some s
    else match x.run M S outer s with
      | some s' => runSts M S outer xs s'
      | none => none
end

/-! ## The start of a function -/

/-- The caller gives an object for the output. -/
def Argument.present (wanted : String → Bool) (a : Argument) : Bool :=
  match a.direction with
  | .input => false
  | .output => true
  | .optional => wanted a.name

/-- What a parameter stands for. -/
def paramObj (T : Scoping) (input : String → Cell K) (wanted : String → Bool) (a : Argument) : Obj K :=
  match a.direction, T with
  | .input, _ => .val (input a.name)
  | .output, .cpp _ => .alias a.name
  | .output, _ => .ptr a.name
  | .optional, .rust => if wanted a.name then .option a.name else .val .none
  | .optional, _ => if wanted a.name then .ptr a.name else .val .none

/-- What the view of a matrix stands for (C++). -/
def viewObj (input : String → Cell K) (wanted : String → Bool) (a : Argument) : Obj K :=
  match a.direction with
  | .input => .val (input a.name)
  | .output => .alias a.name
  | .optional => if wanted a.name then .alias a.name else .val .none

/-- The variables at the start of the body. -/
def startObjs (T : Scoping) (args : List Argument) (input : String → Cell K) (wanted : String → Bool) : List (String × Obj K) :=
  match T with
  | .cpp true => args.map (fun a => (a.name, paramObj T input wanted a)) ++ (args.filter (·.type.isMatrix)).map fun a => ("_" ++ a.name, viewObj input wanted a)
  | .python false =>
    (args.filter (·.direction = .input)).map (fun a => (a.name, .val (input a.name))) ++
      (args.filter (·.direction = .optional)).map fun a => ("compute_" ++ a.name, .val (.switch (wanted a.name)))
  | T => args.map fun a => (a.name, paramObj T input wanted a)

/-- An object that has not been written. -/
def VarType.fresh : VarType → Slot K
  | .matrix r c => .mat r c (List.replicate (r * c) none)
  | _ => .num none

/-- The state at the start of the body. -/
def startState (T : Scoping) (args : List Argument) (input : String → Cell K) (wanted : String → Bool) : State K where
  vars := startObjs T args input wanted
  heap := if T = .python false then [] else (args.filter (Argument.present wanted)).map fun a => (a.name, a.type.fresh)
  result := none

/-! ## Machines and names for which the text is meant -/

/-- The machine computes what the interpretation of the operations says. -/
structure Machine.Computes (M : Machine K) (I : Interp K) : Prop where
  div : ∀ x y, I.f .div [x, y] = M.div x y
  cmp : ∀ r x y, I.f (.compare r.number) [x, y] = M.cmp r x y
  cast : ∀ p x, I.f (.cast p.number) [x] = M.cast p x
  fn : ∀ (f : Std) l, I.f (.callStd f.number) l = M.fn f.meaning l
  cond : ∀ c x y, I.f .cond [c, x, y] = if M.truth c then x else y

/-- What the machine has to satisfy for the text of some operations: the sign is made of comparisons, truth values and floors are integers. -/
structure Machine.Lawful (M : Machine K) : Prop where
  sign : ∀ x, M.fn .sign [x] = M.cmp .lt 0 x - M.cmp .lt x 0
  floor : ∀ x, M.cast .integral (M.fn .floor [x]) = M.fn .floor [x]
  bool : ∀ r x y, M.cast .integral (M.cmp r x y) = M.cmp r x y
  zero : M.cast .floating 0 = 0
  rustZero : M.lit "0.0f64" = some 0
  refl : ∀ x, M.truth (M.cmp .eq x x) = true

/-- The expression of the text. -/
def Tree.text (T : Scoping) (o : PyOptions) (t : Tree) : E :=
  match T with
  | .cpp span => t.cppE span
  | .rust => t.rustE
  | .python _ => t.pythonE o

/-- The values of literals and constants. -/
def Machine.con (M : Machine K) (S : Setting) (o : PyOptions) (t : Tree) : Option K := (t.text S.T o).value M S ⟨[], [], none⟩

/-- The name of a temporary. -/
def Temporary (N : Naming) (n : String) : Prop := ∃ v, n = tempName N.width v

/-- Names of arguments and of temporaries are not literals, constants or names of libraries. -/
structure PlainNames (M : Machine K) (S : Setting) (N : Naming) (args : List Argument) : Prop where
  plain : ∀ n, n ∈ givenNames S.T args ∨ Temporary N n → M.lit n = none ∧ S.isLibrary n = false ∧ n ≠ "None"
  none : M.lit "None" = Option.none

/-- The constructor of an output that is a matrix makes matrices of the shape of the argument. -/
def _root_.Wf.Gen.Shaped (N : Naming) (usage : Nat → Usage) (g : Graph) : Prop :=
  ∀ v ∈ g.ops, ∀ key, (g.node v).op = .save key → usage key ≠ .returnValue → ∀ r c, (N.output key).type = .matrix r c → ∀ a ∈ (g.node v).args,
    ∃ t, (g.node a).op = .construct t ∧ N.shape t = some (r, c)

/-- A matrix has as many elements as its type says. -/
def Value.Sized : Value → Prop
  | .matrix r c l => l.length = r * c
  | _ => True

/-! ## What the caller gets -/

/-- The object holds the value `x` of an output. -/
def Slot.Holds (N : Naming) (I : Interp K) (x : K) : Slot K → Prop
  | .num y => y = some x
  | .mat r c l => ∃ t xs, N.shape t = some (r, c) ∧ l = xs.map some ∧ x = I.f (.construct t) xs

/-- The outputs that are returned: all of them in Python without output arguments, `python_code_generator.cc:212-216`. -/
def returnedOutputs (T : Scoping) (args : List Argument) : List String :=
  if T = .python false then (args.filter (·.direction ≠ .input)).map (·.name) else []

/-- The function has returned, for the output `n`, a value with the property. -/
def ReturnedAs (T : Scoping) (args : List Argument) (n : String) (s : State K) (P : Cell K → Prop) : Prop :=
  ∃ before cs, ∃ i : Nat, ∃ c, s.result = some (before ++ cs) ∧ cs.length = (returnedOutputs T args).length ∧ (returnedOutputs T args)[i]? = some n ∧ cs[i]? = some c ∧ P c

/-- The caller gets the value `x` for the output `n`: in the object it gave, or as one of the values that are returned. -/
def OutputIs (T : Scoping) (N : Naming) (I : Interp K) (args : List Argument) (n : String) (x : K) (s : State K) : Prop :=
  if T = .python false then ReturnedAs T args n s (Holds N I x) else ∃ slot, find n s.heap = some slot ∧ slot.Holds N I x

/-- The caller gets the value `x` of an output: as the value that is returned, or as the output. If an optional output is not wanted, `None` is returned for it
in Python; in the other languages there is no object for it. -/
def Received (T : Scoping) (N : Naming) (I : Interp K) (args : List Argument) (usage : Nat → Usage) (wanted : String → Bool) (key : Nat) (x : K) (s : State K) : Prop :=
  match usage key with
  | .returnValue => ∃ c cs, s.result = some (c :: cs) ∧ cs.length = (returnedOutputs T args).length ∧ Holds N I x c
  | .output => OutputIs T N I args (N.output key).name x s
  | .optional =>
    if wanted (N.output key).name then OutputIs T N I args (N.output key).name x s
    else T = .python false → ReturnedAs T args (N.output key).name s (· = .none)

end

end Wf.Gen.Text
