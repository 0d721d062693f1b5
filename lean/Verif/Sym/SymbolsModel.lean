import Verif.Sym.ExprModel

/-!
# Model of `sym.symbols` and `sym.symbol`: `wrapper/pywrenfold/scalar_wrapper.cc:42-140`

A string is the list of its UTF-8 bytes, as the code sees it; `char` is signed (x86). A symbol is its name; all symbols of one call have the same
number set.
-/

namespace Wf.Sym

/-- `determine_set_from_flags`, `scalar_wrapper.cc:43-58`. -/
def setFromFlags (real positive nonnegative complex : Bool) : Res NSet :=
  if (real || positive || nonnegative) && complex then .error .invalidArgument
  else if positive then .ok .positive
  else if nonnegative then .ok .nonNegative
  else if real then .ok .real
  else if complex then .ok .complex
  else .ok .unknown

/-- `std::isspace(c)` in the C locale for a `char`: undefined for negative values. -/
def isSpaceChar (c : UInt8) : Res Bool :=
  if c ≥ 128 then .error .ub else .ok (c == 32 || c == 9 || c == 10 || c == 11 || c == 12 || c == 13)

/-- The loop of `create_symbols_from_str`, `scalar_wrapper.cc:63-77`. -/
def splitNames : List UInt8 → List UInt8 → Res (List (List UInt8))
  | [], name => .ok (if name.isEmpty then [] else [name])
  | c :: cs, name => do
    let space ← isSpaceChar c
    if space || c == 44 then
      if name.isEmpty then splitNames cs []
      else do
        let rest ← splitNames cs []
        .ok (name :: rest)
    else splitNames cs (name ++ [c])

/-- The argument of `symbols`: a string, an iterable, or something else. -/
inductive SymArg
  | str (bytes : List UInt8)
  | iter (xs : List SymArg)
  | other

/-- The result: a symbol or a list. -/
inductive Symbols
  | one (name : List UInt8)
  | many (xs : List Symbols)

/-- `create_symbols_from_str` on a string, `scalar_wrapper.cc:61-82`. -/
def symbolsFromStr (bytes : List UInt8) : Res Symbols := do
  let names ← splitNames bytes []
  match names with
  | [name] => .ok (.one name)
  | _ => .ok (.many (names.map .one))

mutual
/-- One element of an iterable or the argument itself, `scalar_wrapper.cc:88-96,134-139`. -/
def symbolsFrom : SymArg → Res Symbols
  | .str bytes => symbolsFromStr bytes
  | .iter xs => do
    let ys ← symbolsFromAll xs
    .ok (.many ys)
  | .other => .error .type
/-- `create_symbols_from_str` on an iterable, `scalar_wrapper.cc:86-98`. -/
def symbolsFromAll : List SymArg → Res (List Symbols)
  | [] => .ok []
  | x :: xs => do
    let y ← symbolsFrom x
    let ys ← symbolsFromAll xs
    .ok (y :: ys)
end

/-- `create_symbol`, `scalar_wrapper.cc:100-105`. -/
def symbolFrom (bytes : List UInt8) : Res (List UInt8) :=
  if bytes.isEmpty then .error .invalidArgument else .ok bytes

/-- `sym.symbols` with its flags, `scalar_wrapper.cc:124-140`. -/
def pySymbols (arg : SymArg) (real positive nonnegative complex : Bool) : Res (Symbols × NSet) := do
  let set ← setFromFlags real positive nonnegative complex
  let s ← symbolsFrom arg
  .ok (s, set)

end Wf.Sym
