import Verif.Sym.FormatModel
import Verif.Sym.EvalSpec

/-!
# How a plain text is read, and what it denotes

The operators have their usual precedence, the one of Python ("Expressions" in its reference): comparisons, then `+ -` (left associative), then `* /`
(left associative), then the minus sign in front of an operand, then `**`, whose right operand may begin with a minus sign and whose left operand is a
name, a number, a call or a text in parentheses.
-/

namespace Wf.Sym.Plain

variable {F : Type}

inductive BinOp
  | add | sub | mul | div | pow | lt | le | eq
deriving DecidableEq, Repr

/-- Syntax trees. -/
inductive T (F : Type)
  | name (s : String)
  | int (n : Nat)
  | flt (f : F)
  | opaq (e : Expr F)
  | bin (op : BinOp) (a b : T F)
  | neg (a : T F)
  | app (f : String) (l : List (T F))

def BinOp.tok : BinOp → Tok F
  | .add => .plus
  | .sub => .minus
  | .mul => .star
  | .div => .slash
  | .pow => .dstar
  | .lt => .lt
  | .le => .le
  | .eq => .eqeq

/-- The level of an operator: 0 comparison, 1 sum, 2 product, 3 sign, 4 power, 5 operand. -/
def BinOp.level : BinOp → Nat
  | .add | .sub => 1
  | .mul | .div => 2
  | .pow => 4
  | .lt | .le | .eq => 0

/-- The levels of its operands. -/
def BinOp.left : BinOp → Nat
  | .add | .sub => 1
  | .mul | .div => 2
  | .pow => 5
  | .lt | .le | .eq => 1
@[inherit_doc BinOp.left] def BinOp.right : BinOp → Nat
  | .add | .sub => 2
  | .mul | .div => 3
  | .pow => 3
  | .lt | .le | .eq => 1

mutual
/-- The tokens are an expression of the level, with this tree. -/
inductive Reads : Nat → Toks F → T F → Prop
  | up {k ts e} : k < 5 → Reads (k + 1) ts e → Reads k ts e
  | bin {op : BinOp} {l r a b} : Reads op.left l a → Reads op.right r b → Reads op.level (l ++ op.tok :: r) (.bin op a b)
  | neg {ts e} : Reads 3 ts e → Reads 3 (.minus :: ts) (.neg e)
  | paren {ts e} : Reads 0 ts e → Reads 5 (.lpar :: (ts ++ [.rpar])) e
  | name {s} : Reads 5 [.name s] (.name s)
  | int {n} : Reads 5 [.int n] (.int n)
  | flt {f} : Reads 5 [.flt f] (.flt f)
  | opaq {e} : Reads 5 [.opaq e] (.opaq e)
  | app {f us l} : ReadsArgs us l → Reads 5 (.name f :: .lpar :: (us ++ [.rpar])) (.app f l)

/-- Arguments separated by commas. -/
inductive ReadsArgs : Toks F → List (T F) → Prop
  | nil : ReadsArgs [] []
  | one {ts e} : Reads 0 ts e → ReadsArgs ts [e]
  | cons {ts us e l} : Reads 0 ts e → ReadsArgs us l → l ≠ [] → ReadsArgs (ts ++ .comma :: us) (e :: l)
end

/-- The text reads as the tree `e` and as no other. -/
def ReadsAs (ts : Toks F) (e : T F) : Prop := Reads 0 ts e ∧ ∀ e', Reads 0 ts e' → e' = e

/-! ## The value of a tree -/

/-- A value, a division by zero or power of zero that has no value, or no value for another reason. -/
inductive Out (α : Type)
  | val (a : α)
  | pole
  | bad

def Out.bind {α β : Type} : Out α → (α → Out β) → Out β
  | .val a, f => f a
  | .pole, _ => .pole
  | .bad, _ => .bad

/-- No value for a reason other than a pole. -/
def Out.ofOption {α : Type} : Option α → Out α
  | some a => .val a
  | none => .bad

/-- What a name in front of a parenthesis stands for. -/
inductive Callee
  | builtIn (f : BuiltIn)
  | user (name : String)
  | choice
  | same

/-- What the names in a text stand for. -/
structure Names (F : Type) where
  leaf : String → Option (Head F)
  callee : String → Option Callee

/-- A binary operation. -/
noncomputable def binVal (op : BinOp) (x y : ℂ) : Out ℂ :=
  match op with
  | .add => .val (x + y)
  | .sub => .val (x - y)
  | .mul => .val (x * y)
  | .div => if y = 0 then .pole else .val (x / y)
  | .pow =>
    match powVal x y with
    | some z => .val z
    | none => .pole
  | .lt => .ofOption (relVal .lt x y)
  | .le => .ofOption (relVal .le x y)
  | .eq => .ofOption (relVal .eq x y)

noncomputable def binOut (op : BinOp) (a b : Out ℂ) : Out ℂ := a.bind fun x => b.bind fun y => binVal op x y

/-- All the values, from left to right. -/
def seqOut : List (Out ℂ) → Out (List ℂ)
  | [] => .val []
  | a :: as => a.bind fun z => (seqOut as).bind fun zs => .val (z :: zs)

variable [DecidableEq F] [FloatSem F]

/-- A call. -/
noncomputable def callVal (ρ : Env F) (c : Option Callee) (vs : List (Out ℂ)) : Out ℂ :=
  match c, vs with
  | some (.builtIn f), vs => (seqOut vs).bind fun zs => .ofOption (fnVal f zs)
  | some (.user n), vs => (seqOut vs).bind fun zs => .ofOption (ρ.symfn n zs)
  | some .choice, [c, a, b] => c.bind fun z => if z = 1 then a else if z = 0 then b else .bad
  | some .same, [a] => a
  | _, _ => .bad

/-- The value of a name. -/
noncomputable def nameVal (ρ : Env F) : Option (Head F) → Out ℂ
  | some h => .ofOption (eval ρ (.node h []))
  | none => .bad

mutual
/-- The value of a tree under an assignment. The token of a float stands for its absolute value. -/
noncomputable def T.val (D : Names F) (ρ : Env F) : T F → Out ℂ
  | .name s => nameVal ρ (D.leaf s)
  | .int n => .val (n : ℂ)
  | .flt f => .ofOption ((FloatSem.val f).map fun x : ℝ => ((|x| : ℝ) : ℂ))
  | .opaq e => .ofOption (ρ.opaq ρ.leaf e)
  | .bin op a b => binOut op (a.val D ρ) (b.val D ρ)
  | .neg a => (a.val D ρ).bind fun x => .val (-x)
  | .app f l => callVal ρ (D.callee f) (valList D ρ l)

noncomputable def valList (D : Names F) (ρ : Env F) : List (T F) → List (Out ℂ)
  | [] => []
  | t :: ts => t.val D ρ :: valList D ρ ts
end

/-! ## The names in an expression -/

/-- The names of the built-in functions and of the other things the formatter writes as calls. -/
structure Names.Usual (D : Names F) : Prop where
  builtIn : ∀ f : BuiltIn, D.callee f.name = some (.builtIn f)
  choice : D.callee "where" = some .choice
  iverson : D.callee "iverson" = some .same
  stop : D.callee "StopDerivative" = some .same
  leaf : ∀ h : Head F, (∃ c, h = .const c) ∨ (∃ b, h = .bconst b) ∨ h = .imag ∨ h = .zoo ∨ h = .undef → D.leaf (leafText h) = some h

/-- The name at a node stands for what is stored there. -/
def Names.Knows (D : Names F) : Head F → List (Expr F) → Prop
  | .var n s, _ => D.leaf n = some (.var n s)
  | .argVar n i t, _ => D.leaf (leafText (.argVar n i t : Head F)) = some (.argVar n i t)
  | .uniq i s, _ => D.leaf (leafText (.uniq i s : Head F)) = some (.uniq i s)
  | .symfn n, _ => D.callee n = some (.user n)
  | _, _ => True

end Wf.Sym.Plain
