import Verif.Gen.StmtTextModel
import Verif.Gen.TextSpec

/-!
# How the target languages read statements

The grammars of the languages for the statements that occur, on top of the grammar of expressions of `TextSpec.lean`:

* C++ and Rust are read as sequences of tokens: line breaks, indentation and comments separate tokens and have no other effect. A statement ends with a
  semicolon or is an `if`.
* In Rust, an `if` at the beginning of a statement is a statement, never the beginning of a larger expression (reference, "Expression statements"). The
  condition of an `if` has no `{` outside parentheses ("Struct expressions are not allowed in the condition"). A block may end with an expression: its
  value.
* In C++, `(T() << a, b).finished()` is how a matrix of the library Eigen is filled. `<<` binds closer than comparisons and conditionals: the first
  element must be at least a sum (level 3).
* Python is read by lines (reference, "Lexical analysis", 2.1.5-2.1.8): line breaks inside brackets do not end a line, comments and blank lines are
  skipped, and all the statements of a block have the same indentation, which is larger than the one of the block around it.
-/

namespace Wf.Gen.Text

/-! ## Syntax trees -/

mutual
/-- Right hand sides. -/
inductive V
  | e (e : E)
  /-- A matrix of a type, filled with elements. -/
  | matrix (type : String) (l : List E)
  /-- A matrix made by a function from a list of elements, with a shape. -/
  | array (f : String) (l : List E) (rows cols : Nat)
  | object (type : String) (parts : Parts)

inductive Parts
  | nil
  | cons (name : String) (v : V) (rest : Parts)
end

/-- Left hand sides. -/
inductive Place
  | e (e : E)
  | deref (x : String)
  | arrow (x f : String) (l : List E)
  | slice (e : E)

/-- Conditions of `if`. -/
inductive Cond
  | e (e : E)
  /-- `if let Some(x) = y`. -/
  | isSome (x y : String)
  /-- `x is not None`. -/
  | notNone (x : String)

inductive St
  | declare (const : Bool) (type name : String) (v : Option V)
  | assign (p : Place) (v : V)
  | expr (e : E)
  | ret (l : List V)
  /-- The value of a block (Rust). -/
  | tail (v : V)
  | ite (c : Cond) (t e : List St)
  | assert (e : E) (message : String)

/-! ## Layout -/

/-- Text without line breaks, indentation and comments; they separate tokens. `c`: inside a comment. -/
def plain : Bool → Toks → Toks
  | _, [] => []
  | _, .nl :: ts => .sp :: plain false ts
  | true, _ :: ts => plain true ts
  | false, .indent _ :: ts => .sp :: plain false ts
  | false, .comment _ :: ts => .sp :: plain true ts
  | false, t :: ts => t :: plain false ts

/-- The tokens of a text (C++ and Rust). -/
def words (L : Lang) (text : Toks) : Toks := tokens L (plain false text)

def Tok.opens : Tok → Bool
  | .lpar | .lbracket | .lbrace => true
  | _ => false

def Tok.closes : Tok → Bool
  | .rpar | .rbracket | .rbrace => true
  | _ => false

/-- The depth of brackets after a token. -/
def Tok.depth (d : Nat) (t : Tok) : Nat := if t.opens then d + 1 else if t.closes then d - 1 else d

/-- The logical lines of a Python text, at a depth of brackets. -/
def splitLines : Nat → Toks → List Toks
  | _, [] => [[]]
  | 0, .nl :: ts => [] :: splitLines 0 ts
  | d + 1, .nl :: ts => splitLines (d + 1) ts
  | d + 1, .indent _ :: ts => splitLines (d + 1) ts
  | d, t :: ts =>
    match splitLines (t.depth d) ts with
    | [] => [[t]]
    | l :: ls => (t :: l) :: ls

/-- The indentation of a line. -/
def indentation : Toks → Nat
  | .indent n :: ts => n + indentation ts
  | _ => 0

/-- The indentation and the tokens of a line, if it is not blank. -/
def lineOf (ts : Toks) : Option (Nat × Toks) := if words .python ts = [] then none else some (indentation ts, words .python ts)

/-- The lines of a Python text. -/
def pyLines (text : Toks) : List (Nat × Toks) := (splitLines 0 text).filterMap lineOf

/-- The text before and after the first token with `p` that is outside brackets. -/
def splitAt (p : Tok → Bool) : Nat → Toks → Option (Toks × Toks)
  | _, [] => none
  | d, t :: ts => if d = 0 ∧ p t = true then some ([], t :: ts) else (splitAt p (t.depth d) ts).map fun x => (t :: x.1, x.2)

/-! ## Grammars -/

/-- What is in front of a member of an object. -/
def memberStart (L : Lang) (n : String) : Toks :=
  match L with
  | .cpp => []
  | .rust => [.name n, .colon]
  | .python => [.name n, .assign]

/-- C++ does not name the members. -/
def memberName (L : Lang) (n : String) : String := if L = .cpp then "" else n

mutual
inductive ReadsV (L : Lang) : Toks → V → Prop
  | expr {ts e} : Reads L 0 ts e → ReadsV L ts (.e e)
  | matrixOne {T ts e} : L = .cpp → Reads L 3 ts e →
      ReadsV L (.lpar :: .ty T :: .lpar :: .rpar :: .shl :: (ts ++ [.rpar, .dot, .name "finished", .lpar, .rpar])) (.matrix T [e])
  | matrix {T ts us e l} : L = .cpp → Reads L 3 ts e → ReadsArgs L us l → l ≠ [] →
      ReadsV L (.lpar :: .ty T :: .lpar :: .rpar :: .shl :: (ts ++ .comma :: (us ++ [.rpar, .dot, .name "finished", .lpar, .rpar]))) (.matrix T (e :: l))
  | array {f us l r c} : L = .python → ReadsArgs L us l →
      ReadsV L (.name f :: .lpar :: .lbracket :: (us ++ [.rbracket, .rpar, .dot, .name "reshape", .lpar, .int r "", .comma, .int c "", .rpar])) (.array f l r c)
  | braces {T us fs} : L ≠ .python → ReadsParts L us fs → ReadsV L (.ty T :: .lbrace :: (us ++ [.rbrace])) (.object T fs)
  | call {T us fs} : L = .python → ReadsParts L us fs → ReadsV L (.name T :: .lpar :: (us ++ [.rpar])) (.object T fs)

/-- The members of an object, separated by commas. -/
inductive ReadsParts (L : Lang) : Toks → Parts → Prop
  | one {n ts v} : ReadsV L ts v → ReadsParts L (memberStart L n ++ ts) (.cons (memberName L n) v .nil)
  | cons {n ts v us fs} : ReadsV L ts v → ReadsParts L us fs → ReadsParts L (memberStart L n ++ (ts ++ .comma :: us)) (.cons (memberName L n) v fs)
end

/-- Two or more values separated by commas. -/
inductive ReadsTuple (L : Lang) : Toks → List V → Prop
  | two {ts us v w} : ReadsV L ts v → ReadsV L us w → ReadsTuple L (ts ++ .comma :: us) [v, w]
  | cons {ts us v l} : ReadsV L ts v → ReadsTuple L us l → ReadsTuple L (ts ++ .comma :: us) (v :: l)

inductive ReadsPlace (L : Lang) : Toks → Place → Prop
  | expr {ts e} : Reads L 7 ts e → ReadsPlace L ts (.e e)
  | deref {x} : L ≠ .python → ReadsPlace L [.star, .name x] (.deref x)
  | arrow {x f us l} : L = .cpp → ReadsArgs L us l → ReadsPlace L (.name x :: .arrow :: .name f :: .lpar :: (us ++ [.rpar])) (.arrow x f l)
  | slice {ts e} : L = .python → Reads L 7 ts e → ReadsPlace L (ts ++ [.lbracket, .colon, .rbracket]) (.slice e)

inductive ReadsCond (L : Lang) : Toks → Cond → Prop
  | cpp {ts e} : L = .cpp → Reads L 0 ts e → ReadsCond L (.lpar :: (ts ++ [.rpar])) (.e e)
  | rust {ts e} : L = .rust → Reads L 0 ts e → splitAt (· = .lbrace) 0 ts = none → ReadsCond L ts (.e e)
  | isSome {x y} : L = .rust → ReadsCond L [.kLet, .name "Some", .lpar, .name x, .rpar, .assign, .name y] (.isSome x y)
  | python {ts e} : L = .python → Reads L 0 ts e → ReadsCond L ts (.e e)
  | notNone {x} : L = .python → ReadsCond L [.name x, .kIs, .kNot, .name "None"] (.notNone x)

/-- Statements that are not an `if`. -/
inductive ReadsSimple (L : Lang) : Toks → St → Prop
  | const {T x ts v} : L = .cpp → ReadsV L ts v → ReadsSimple L (.kConst :: .ty T :: .name x :: .assign :: ts) (.declare true T x (some v))
  | bare {T x} : L = .cpp → ReadsSimple L [.ty T, .name x] (.declare false T x none)
  | bind {T x ts v} : L = .rust → ReadsV L ts v → ReadsSimple L (.kLet :: .name x :: .colon :: .ty T :: .assign :: ts) (.declare true T x (some v))
  | later {T x} : L = .rust → ReadsSimple L [.kLet, .name x, .colon, .ty T] (.declare true T x none)
  | assign {ts us p v} : ReadsPlace L ts p → ReadsV L us v → ReadsSimple L (ts ++ .assign :: us) (.assign p v)
  | expr {ts e} : L = .rust → Reads L 0 ts e → ts.head? ≠ some .kIf → ReadsSimple L ts (.expr e)
  | ret {ts v} : L ≠ .rust → ReadsV L ts v → ReadsSimple L (.kReturn :: ts) (.ret [v])
  | tuple {ts l} : L = .python → ReadsTuple L ts l → ReadsSimple L (.kReturn :: .lpar :: (ts ++ [.rpar])) (.ret l)
  | assert {ts e m} : L = .python → Reads L 0 ts e → ReadsSimple L (.kAssert :: (ts ++ [.comma, .name m])) (.assert e m)

/-- The statements of a block (C++ and Rust). -/
inductive ReadsBlock (L : Lang) : Toks → List St → Prop
  | nil : ReadsBlock L [] []
  | simple {ts us s ss} : ReadsSimple L ts s → ts.head? ≠ some .kIf → ReadsBlock L us ss → ReadsBlock L (ts ++ .semi :: us) (s :: ss)
  | tail {ts v} : L = .rust → ReadsV L ts v → ts.head? ≠ some .kIf → ReadsBlock L ts [.tail v]
  | ite {l m us c t ss} : ReadsCond L l c → ReadsBlock L m t → ReadsBlock L us ss →
      ReadsBlock L (.kIf :: (l ++ .lbrace :: (m ++ .rbrace :: us))) (.ite c t [] :: ss)
  | iteElse {l m n us c t e ss} : ReadsCond L l c → ReadsBlock L m t → ReadsBlock L n e → ReadsBlock L us ss →
      ReadsBlock L (.kIf :: (l ++ .lbrace :: (m ++ .rbrace :: .kElse :: .lbrace :: (n ++ .rbrace :: us)))) (.ite c t e :: ss)

/-- The statements of a block with an indentation (Python). A block is not empty. -/
inductive ReadsLines : Nat → List (Nat × Toks) → List St → Prop
  | nil {i} : ReadsLines i [] []
  | simple {i ts ls s ss} : ReadsSimple .python ts s → ReadsLines i ls ss → ReadsLines i ((i, ts) :: ls) (s :: ss)
  | ite {i j l m ls c t ss} : ReadsCond .python l c → i < j → ReadsLines j m t → t ≠ [] → ReadsLines i ls ss →
      ReadsLines i ((i, .kIf :: (l ++ [.colon])) :: (m ++ ls)) (.ite c t [] :: ss)
  | iteElse {i j k l m n ls c t e ss} : ReadsCond .python l c → i < j → ReadsLines j m t → t ≠ [] → i < k → ReadsLines k n e → e ≠ [] → ReadsLines i ls ss →
      ReadsLines i ((i, .kIf :: (l ++ [.colon])) :: (m ++ (i, [.kElse, .colon]) :: (n ++ ls))) (.ite c t e :: ss)

/-- A text in braces is read as a block with the statements, and with no others. -/
def BlockReadsAs (L : Lang) (text : Toks) (ss : List St) : Prop :=
  ∃ ts, words L text = .lbrace :: (ts ++ [.rbrace]) ∧ ReadsBlock L ts ss ∧ ∀ ss', ReadsBlock L ts ss' → ss' = ss

/-- A Python text is read as a block with the indentation and the statements, and with no others. -/
def LinesReadAs (i : Nat) (text : Toks) (ss : List St) : Prop :=
  ss ≠ [] ∧ ReadsLines i (pyLines text) ss ∧ ∀ ss', ReadsLines i (pyLines text) ss' → ss' = ss

/-! ## The statements that are meant -/

/-- The positions of a matrix, row by row. -/
def positions (rows cols : Nat) : List (Nat × Nat) := (List.range rows).flatMap fun i => (List.range cols).map fun j => (i, j)

mutual
def Value.cppV (span : Bool) : Value → V
  | .expr t => .e (t.cppE span)
  | .matrix r c l => .matrix (VarType.matrix r c).cpp (l.map (Tree.cppE span))
  | .struct n fs => .object n (fs.cppV span)

def Fields.cppV (span : Bool) : Fields → Parts
  | .nil => .nil
  | .cons _ v fs => .cons "" (v.cppV span) (fs.cppV span)
end

mutual
def Value.rustV : Value → V
  | .expr t => .e t.rustE
  | .matrix _ _ _ => .e (.atom "")
  | .struct n fs => .object n fs.rustV

def Fields.rustV : Fields → Parts
  | .nil => .nil
  | .cons n v fs => .cons n v.rustV fs.rustV
end

mutual
def Value.pythonV (o : PyOptions) : Value → V
  | .expr t => .e (t.pythonE o)
  | .matrix r c l => .array o.matrixConstructor (l.map (Tree.pythonE o)) r c
  | .struct n fs => .object n (fs.pythonV o)

def Fields.pythonV (o : PyOptions) : Fields → Parts
  | .nil => .nil
  | .cons n v fs => .cons n (v.pythonV o) (fs.pythonV o)
end

/-- An element of a C++ output. -/
def cppPlace (span : Bool) (n : String) (optional : Bool) (i j : Nat) : Place :=
  if span then .e (.app (.atom ("_" ++ n)) [.int i "", .int j ""])
  else if optional then .arrow n "operator()" [.int i "", .int j ""]
  else .e (.app (.atom n) [.int i "", .int j ""])

mutual
/-- The C++ statements meant by a statement. -/
def Stm.cppSt (span : Bool) : Stm → List St
  | .comment _ => []
  | .declare n t none => [.declare false t.cpp n none]
  | .declare n t (some v) => [.declare true t.cpp n (some (v.cppV span))]
  | .assign n v => [.assign (.e (.atom n)) (v.cppV span)]
  | .output n optional v => [.assign (if optional then .deref n else .e (.atom n)) (v.cppV span)]
  | .outputMatrix n optional r c l => ((positions r c).zip l).map fun p => .assign (cppPlace span n optional p.1.1 p.1.2) (.e (p.2.cppE span))
  | .ret v => [.ret [v.cppV span]]
  | .branch c t e => [.ite (.e (c.cppE span)) (stmsCppSt span t) (stmsCppSt span e)]
  | .optional n t body => [.ite (.e (.cast "bool" (.atom (if span && t.isMatrix then "_" ++ n else n)))) (stmsCppSt span body) []]

def stmsCppSt (span : Bool) : List Stm → List St
  | [] => []
  | s :: ss => s.cppSt span ++ stmsCppSt span ss
end

mutual
/-- The value of a Rust function: a conditional is read as a statement with a value in each branch. -/
def Tree.rustTail : Tree → St
  | .cond c a b => .ite (.e c.rustE) [a.rustBranch] [b.rustBranch]
  | .copy a => a.rustTail
  | t => .tail (.e t.rustE)

/-- The value of a branch. (A conditional has parentheses, the copy of a conditional has none.) -/
def Tree.rustBranch : Tree → St
  | .copy a => a.rustTail
  | t => .tail (.e t.rustE)
end

mutual
/-- The Rust statements meant by a statement. -/
def Stm.rustSt : Stm → List St
  | .comment _ => []
  | .declare n t v => [.declare true t.rust n (v.map Value.rustV)]
  | .assign n v => [.assign (.e (.atom n)) v.rustV]
  | .output n _ v => [.assign (.deref n) v.rustV]
  | .outputMatrix n _ r c l => ((positions r c).zip l).map fun p => .expr (.app (.field (.atom n) "set") [.int p.1.1 "", .int p.1.2 "", p.2.rustE])
  | .ret (.expr t) => [t.rustTail]
  | .ret v => [.tail v.rustV]
  | .branch c t e => [.ite (.e c.rustE) (stmsRustSt t) (stmsRustSt e)]
  | .optional n _ body => [.ite (.isSome n n) (stmsRustSt body) []]

def stmsRustSt : List Stm → List St
  | [] => []
  | s :: ss => s.rustSt ++ stmsRustSt ss
end

/-- The size of an array that the caller gives is checked. -/
def sizeCheck (n : String) : VarType → List St
  | .matrix r c => [.assert (.bin .eq (.field (.atom n) "size") (.int (r * c) "")) "message"]
  | _ => []

mutual
/-- The Python statements meant by a statement, but for the one that returns the value. -/
def Stm.pythonSt (o : PyConfig) : Stm → List St
  | .comment _ => []
  | .declare n _ none => [.assign (.e (.atom n)) (.e (.atom "None"))]
  | .declare n _ (some v) => [.assign (.e (.atom n)) (v.pythonV o.expr)]
  | .assign n v => [.assign (.e (.atom n)) (v.pythonV o.expr)]
  | .output n _ v => [.assign (.e (.atom n)) (v.pythonV o.expr)]
  | .outputMatrix n _ r c l =>
    [.assign (if o.outputArguments then .slice (.app (.field (.atom n) "reshape") [.int r "", .int c ""]) else .e (.atom n))
      (.array o.expr.matrixConstructor (l.map (Tree.pythonE o.expr)) r c)]
  | .ret _ => []
  | .branch c t e => [.ite (.e (c.pythonE o.expr)) (stmsPythonSt o t) (stmsPythonSt o e)]
  | .optional n t body =>
    if o.outputArguments then [.ite (.notNone n) (sizeCheck n t ++ stmsPythonSt o body) []]
    else [.ite (.e (.atom ("compute_" ++ n))) (stmsPythonSt o body) [.assign (.e (.atom n)) (.e (.atom "None"))]]

def stmsPythonSt (o : PyConfig) : List Stm → List St
  | [] => []
  | s :: ss => s.pythonSt o ++ stmsPythonSt o ss
end

/-- The values that a Python function returns. -/
def pyReturned (o : PyConfig) (outs : List String) (body : List Stm) : List V :=
  ((splitReturn body).2.map (Value.pythonV o.expr)).toList ++ if o.outputArguments then [] else outs.map fun n => .e (.atom n)

/-- The statements of a Python function. -/
def pyMeant (o : PyConfig) (outs : List String) (body : List Stm) : List St :=
  stmsPythonSt o (splitReturn body).1 ++ if (pyReturned o outs body).isEmpty then [] else [.ret (pyReturned o outs body)]

/-! ## Statements whose text is read as meant -/

/-- Truth values: the text of other operations in a condition of Rust may contain a brace. -/
def Tree.isTest : Tree → Bool
  | .var _ => true
  | .arg _ _ => true
  | .bool _ => true
  | .cmp _ _ _ => true
  | .call _ _ _ _ => true
  | .field _ _ => true
  | .elem _ _ _ => true
  | .copy a => a.isTest
  | _ => false

mutual
def Value.Fine (L : Lang) : Value → Prop
  | .expr t => t.Fine L
  | .matrix _ _ l => AllFine L l ∧ (L = .cpp → ∃ t ts, l = t :: ts ∧ t.isLoose .cpp = false)
  | .struct _ fs => fs ≠ .nil ∧ fs.Fine L

def Fields.Fine (L : Lang) : Fields → Prop
  | .nil => True
  | .cons _ v fs => v.Fine L ∧ fs.Fine L
end

/-- The statement is not just a comment. -/
def Stm.isCode : Stm → Bool
  | .comment _ => false
  | .outputMatrix _ _ _ _ l => !l.isEmpty
  | _ => true

mutual
/-- Statements whose text is read as meant. A `return` is not inside other statements. -/
def Stm.Fine (L : Lang) : Stm → Prop
  | .comment _ => True
  | .declare _ _ v => ∀ x, v = some x → x.Fine L
  | .assign _ v => v.Fine L
  | .output _ _ v => v.Fine L
  | .outputMatrix _ _ r c l => AllFine L l ∧ l.length = r * c ∧ (L = .cpp → r < 2 ^ 63 ∧ c < 2 ^ 63)
  | .ret _ => False
  | .branch c t e =>
    c.Fine L ∧ (L = .rust → c.isTest = true) ∧ StmsFine L t ∧ StmsFine L e ∧
      (L = .python → (∃ s ∈ t, s.isCode = true) ∧ (e = [] ∨ ∃ s ∈ e, s.isCode = true))
  | .optional _ _ body => StmsFine L body ∧ (L = .python → ∃ s ∈ body, s.isCode = true)

def StmsFine (L : Lang) : List Stm → Prop
  | [] => True
  | s :: ss => s.Fine L ∧ StmsFine L ss
end

mutual
/-- The value of a Rust function whose text is read as meant: a conditional, or an operation whose text does not begin with `if`. -/
def Tree.TailFine : Tree → Prop
  | .cond c a b => c.isTest = true ∧ a.BranchFine ∧ b.BranchFine
  | .copy a => a.TailFine
  | t => (tokens .rust t.visit.rust).head? ≠ some .kIf

def Tree.BranchFine : Tree → Prop
  | .copy a => a.TailFine
  | _ => True
end

def Value.TailFine : Value → Prop
  | .expr t => t.TailFine
  | _ => True

/-- Bodies of functions whose text is read as meant. -/
def BodyFine (L : Lang) (body : List Stm) : Prop :=
  StmsFine L (splitReturn body).1 ∧ ∀ v, (splitReturn body).2 = some v → v.Fine L ∧ (L = .rust → v.TailFine)

end Wf.Gen.Text
