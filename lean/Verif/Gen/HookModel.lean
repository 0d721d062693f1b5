import Verif.Base

/-!
# Model of custom code generators: `wrapper/pywrenfold/code_formatting_wrapper.cc`

A code generator in Python inherits from one of the generators and replaces the formatting of some kinds of elements. Elements are trees with a
kind and data. What a method does is a script: it asks for the text of elements, one after the other, and returns text or raises an exception;
Python methods can catch exceptions of what they ask for. A generator is given by the scripts of the wrapped class and of the replacements. The
cache of which replacements exist does not change what is found, and is left out.
-/

namespace Wf.Gen.Hook

/-- The formattable types, `code_formatting_wrapper.cc:24-58`. -/
inductive Kind
  | add | assignTemporary | assignOutputMatrix | assignOutputScalar | assignOutputStruct | booleanLiteral | branch | callExternalFunction
  | callStdFunction | cast | comment | compare | constructCustomType | constructMatrix | declaration | divide | floatLiteral | getArgument
  | getField | getMatrixElement | integerLiteral | multiply | negate | optionalOutputBranch | parenthetical | specialConstant | returnObject
  | ternary | variableRef | functionDefinition | functionSignature | customType | matrixType | scalarType
deriving DecidableEq, Repr

/-- An element: its kind, its data and the elements it is made of. -/
inductive El (D : Type)
  | node (kind : Kind) (data : D) (children : List (El D))

variable {D : Type}

def El.kind : El D → Kind
  | .node k _ _ => k

def El.children : El D → List (El D)
  | .node _ _ cs => cs

/-- What a formatting method does. -/
inductive Script (D : Type)
  /-- Return text or raise an exception. -/
  | ret (r : Res String)
  /-- `operator()` of the generator, as the C++ classes call it for the parts of an element. -/
  | operator (e : El D) (k : Res String → Script D)
  /-- `self.format(e)`. -/
  | format (e : El D) (k : Res String → Script D)
  /-- `self.super_format(e)`. -/
  | superFormat (e : El D) (k : Res String → Script D)

/-- A generator: the wrapped class, and the methods `format_…` of the Python class. -/
structure Generator (D : Type) where
  base : El D → Script D
  override : Kind → Option (El D → Script D)

/-- `maybe_override`, `code_formatting_wrapper.cc:105-127`. -/
def Generator.script (g : Generator D) (e : El D) : Script D :=
  match g.override e.kind with
  | some f => f e
  | none => g.base e

/-- `base_code_generator`, `code_formatting_wrapper.cc:66-70,204-208`: nothing is implemented. -/
def unimplemented (_ : El D) : Script D := .ret (.error .type)

/-- `recursion_counters`, `code_formatting_wrapper.cc:173-174`. -/
abbrev Counters := Kind → Nat

/-- The constructor of `recursion_guard`, `code_formatting_wrapper.cc:181-192`, if it does not throw. -/
def bump (c : Counters) (k : Kind) : Counters := fun j => if j = k then c j + 1 else c j

/-- The destructor of `recursion_guard`, `code_formatting_wrapper.cc:194`. -/
def release (c : Counters) (k : Kind) : Counters := fun j => if j = k then c j - 1 else c j

/-- Run a script: `maybe_override` for `operator()`, `invoke_with_guard` (`code_formatting_wrapper.cc:130-134`) for `format` (228-233), the
wrapped class for `super_format` (236-241). The constructor of the guard throws `std::runtime_error` (here `assertion`) if the counter would
become 32. The first argument bounds the number of steps: `none` if the script has not ended. -/
def run (g : Generator D) : Nat → Counters → Script D → Option (Res String × Counters)
  | 0, _, _ => none
  | n + 1, c, s =>
    match s with
    | .ret r => some (r, c)
    | .operator e k =>
      match run g n c (g.script e) with
      | none => none
      | some x => run g n x.2 (k x.1)
    | .format e k =>
      if c e.kind + 1 = 32 then run g n c (k (.error .assertion))
      else match run g n (bump c e.kind) (g.script e) with
        | none => none
        | some x => run g n (release x.2 e.kind) (k x.1)
    | .superFormat e k =>
      match run g n c (g.base e) with
      | none => none
      | some x => run g n x.2 (k x.1)

/-- `generate`, `code_formatting_wrapper.cc:279-284`, on a generator with these counters. -/
def generate (g : Generator D) (n : Nat) (c : Counters) (e : El D) : Option (Res String × Counters) := run g n c (.operator e .ret)

/-- `generate_multiple`, `code_formatting_wrapper.cc:259-272`, given the texts of the definitions. -/
def generateMultiple : List (Res String) → Res String
  | [] => .ok ""
  | r :: rs => do
    let first ← r
    let rest ← rs.mapM fun r => r.map fun t => "\n\n" ++ t
    return rest.foldl (· ++ ·) first

end Wf.Gen.Hook
