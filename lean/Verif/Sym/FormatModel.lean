import Verif.Sym.CtorModel

/-!
# Model of the plain text form of an expression

`plain_formatter` writes an expression as text with the operators `+ - * / **`. The text is modelled as a list of tokens.

Simplifications. Spaces are left out (no two tokens run together without them). The digits of a float are the token `flt f`, which stands for the
absolute value of `f`. Elements of compound expressions, unevaluated derivatives and substitutions, whose text is a name or a call, are one token each
(`opaq`). Sorting compares rational constants in unbounded integers (`exactOrder`). The cache of texts is left out. Negating an expression calls the
simplifying constructors, so the result of the formatter is not a sub-expression; recursion is bounded by the size `n` of the stack.
-/

namespace Wf.Sym.Plain
open Wf.Gen (Prim)

variable {F : Type}

inductive Tok (F : Type)
  | name (s : String) | int (n : Nat) | flt (f : F) | opaq (e : Expr F)
  | plus | minus | star | slash | dstar | lt | le | eqeq | lpar | rpar | comma
deriving DecidableEq

abbrev Toks (F : Type) := List (Tok F)

variable [FloatOps F] [DecidableEq F]

mutual
/-- `is_negative_number`, `utility_visitors.cc:30-51`. -/
def isNegNumber : Expr F → Bool
  | .node h as =>
    match h with
    | .int n => decide (n < 0)
    | .flt f => fltIsNeg f
    | .rat r => ratIsNegative r
    | .mul => negCount as % 2 == 1
    | _ => false
/-- The number of negative numbers among the factors. -/
def negCount : List (Expr F) → Nat
  | [] => 0
  | a :: as => (if isNegNumber a then 1 else 0) + negCount as
end

/-- `get_precedence`, `expression.cc:188-211`, as a rank in `precedence`, `enumerations.h:15-22`: relational 0, addition 1, multiplication 2, power 3;
9 stands for `none`. -/
def prec : Expr F → Nat
  | .node .mul _ => 2
  | .node .add _ => 1
  | .node .pow _ => 3
  | .node (.rat _) _ => 2
  | .node (.rel _) _ => 0
  | .node (.int n) _ => if n < 0 then 2 else 9
  | .node (.flt f) _ => if fltIsNeg f then 2 else 9
  | _ => 9

/-- An integer, `fmt::format("{}", value)`. -/
def intText (n : Int) : Toks F := if n < 0 then [.minus, .int n.natAbs] else [.int n.natAbs]

/-- A float, `plain_formatter.cc:204-206`. -/
def fltText (f : F) : Toks F := if fltIsNeg f then [.minus, .flt f] else [.flt f]

/-- `string_from_symbolic_constant`, `enumerations.h:228-237`. -/
def SymConst.text : SymConst → String
  | .euler => "E"
  | .pi => "pi"

/-- `relational::operation_string`, `string_from_relational_operation`, `enumerations.h:214-225`. -/
def RelOp.tok : RelOp → Tok F
  | .lt => .lt
  | .le => .le
  | .eq => .eqeq

/-- The name of a variable or constant: `plain_formatter.cc:96-99,176-178,191,194,347,353-382`. The name of an argument is followed by the position
of the element, if the argument is not a scalar; the model of an argument variable has no type, so the number of the element stands for it. -/
def leafText : Head F → String
  | .const c => SymConst.text c
  | .zoo => "zoo"
  | .imag => "I"
  | .undef => "nan"
  | .bconst b => if b then "True" else "False"
  | .var n _ => n
  | .argVar n i _ => n ++ "[" ++ toString i ++ "]"
  | .uniq i _ => "$u_" ++ toString i
  | _ => ""

/-- `format_precedence`, `plain_formatter.cc:384-393`. `R` formats an expression. -/
def fmtPrec (R : Expr F → Res (Toks F)) (p : Nat) (e : Expr F) : Res (Toks F) :=
  match R e with
  | .error x => .error x
  | .ok ts => .ok (if prec e ≤ p then .lpar :: (ts ++ [.rpar]) else ts)

/-- `format_power`, `plain_formatter.cc:395-400`. -/
def fmtPow (R : Expr F → Res (Toks F)) (b e : Expr F) : Res (Toks F) :=
  match fmtPrec R 3 b with
  | .error x => .error x
  | .ok l =>
    match fmtPrec R 3 e with
    | .error x => .error x
    | .ok r => .ok (l ++ .dstar :: r)

/-- Arguments separated by commas. -/
def fmtArgs (R : Expr F → Res (Toks F)) : List (Expr F) → Res (Toks F)
  | [] => .ok []
  | [a] => R a
  | a :: as =>
    match R a with
    | .error x => .error x
    | .ok l =>
      match fmtArgs R as with
      | .error x => .error x
      | .ok r => .ok (l ++ .comma :: r)

/-- A call: `plain_formatter.cc:169-174,200-202,286-299,324-326,333-345`. -/
def fmtCall (R : Expr F → Res (Toks F)) (f : String) (as : List (Expr F)) : Res (Toks F) :=
  match fmtArgs R as with
  | .error x => .error x
  | .ok ts => .ok (.name f :: .lpar :: (ts ++ [.rpar]))

/-! ## Sums -/

/-- The comparison of terms, `plain_formatter.cc:60-65`. -/
def termsLe (a b : Expr F) : Bool :=
  andThenBy (exactOrder (asCoeffMul a).2 (asCoeffMul b).2) (exactOrder (asCoeffMul a).1 (asCoeffMul b).1) != .gt

/-- The text of a negative term without its sign, `plain_formatter.cc:76-81`. -/
def fmtNegated (K : Ctors F) (R : Expr F → Res (Toks F)) (t : Expr F) : Res (Toks F) :=
  if isInt (-1) (asCoeffMul t).1 then fmtPrec R 1 (asCoeffMul t).2
  else
    match K.mul [.int (-1), t] with
    | .error x => .error x
    | .ok u => fmtPrec R 1 u

/-- The text of a term that is not negative, `plain_formatter.cc:86-90`. -/
def fmtPlainTerm (R : Expr F → Res (Toks F)) (t : Expr F) : Res (Toks F) :=
  if isInt 1 (asCoeffMul t).1 then fmtPrec R 1 (asCoeffMul t).2 else fmtPrec R 1 t

/-- A term with its sign, `plain_formatter.cc:67-91`. -/
def fmtTerm (K : Ctors F) (R : Expr F → Res (Toks F)) (first : Bool) (t : Expr F) : Res (Toks F) :=
  if isNegNumber (asCoeffMul t).1 then
    match fmtNegated K R t with
    | .error x => .error x
    | .ok ts => .ok (.minus :: ts)
  else
    match fmtPlainTerm R t with
    | .error x => .error x
    | .ok ts => .ok (if first then ts else .plus :: ts)

/-- The loop over the terms, `plain_formatter.cc:67-92`. -/
def fmtTerms (K : Ctors F) (R : Expr F → Res (Toks F)) : Bool → List (Expr F) → Res (Toks F)
  | _, [] => .ok []
  | first, t :: ts =>
    match fmtTerm K R first t with
    | .error x => .error x
    | .ok l =>
      match fmtTerms K R false ts with
      | .error x => .error x
      | .ok r => .ok (l ++ r)

/-- `plain_formatter::operator()(const addition&)`, `plain_formatter.cc:54-94`. -/
def fmtAdd (K : Ctors F) (R : Expr F → Res (Toks F)) (ts : List (Expr F)) : Res (Toks F) :=
  if ts.length < 2 then .error .assertion
  else fmtTerms K R true (ts.insertionSort (fun a b => termsLe a b = true))

/-! ## Products -/

/-- The variant in `multiplication_format_parts`, `multiplication.h:193-197`. A float is printed without its sign. -/
inductive Elem (F : Type)
  | int (n : Int) | flt (f : F) | pow (b e : Expr F)

/-- `multiplication_format_parts`, `multiplication.h:193-197`. -/
structure Parts (F : Type) where
  num : List (Elem F)
  den : List (Elem F)
  signs : Nat

/-- `as_base_and_exp`, `power.cc:498-504`. -/
def asBaseExp : Expr F → Expr F × Expr F
  | .pow b e => (b, e)
  | e => (e, .int 1)

/-- The comparison of factors, `multiplication.cc:305-311`. -/
def factorsLe (a b : Expr F) : Bool :=
  andThenBy (exactOrder (asBaseExp a).1 (asBaseExp b).1) (exactOrder (asBaseExp a).2 (asBaseExp b).2) != .gt

/-- A factor that is not a number, `multiplication.cc:342-357`. -/
def powerPart (K : Ctors F) (p : Parts F) (t : Expr F) : Res (Parts F) :=
  if isNegNumber (asCoeffMul (asBaseExp t).2).1 then
    if isInt (-1) (asBaseExp t).2 then .ok { p with den := p.den ++ [.pow (asBaseExp t).1 (.int 1)] }
    else
      match K.mul [.int (-1), (asBaseExp t).2] with
      | .error x => .error x
      | .ok e => .ok { p with den := p.den ++ [.pow (asBaseExp t).1 e] }
  else .ok { p with num := p.num ++ [.pow (asBaseExp t).1 (asBaseExp t).2] }

/-- One factor, `multiplication.cc:314-358`. -/
def partStep (K : Ctors F) (p : Parts F) (t : Expr F) : Res (Parts F) :=
  match t with
  | .rat r =>
    match cabs r.n with
    | .error x => .error x
    | .ok a =>
      .ok ⟨if a ≠ 1 then p.num ++ [.int a] else p.num, p.den ++ [.int r.d], if r.n < 0 then p.signs + 1 else p.signs⟩
  | .int n =>
    match cabs n with
    | .error x => .error x
    | .ok a =>
      .ok ⟨if n ≠ 1 ∧ n ≠ -1 then p.num ++ [.int a] else p.num, p.den, if n < 0 then p.signs + 1 else p.signs⟩
  | .flt f => .ok ⟨p.num ++ [.flt f], p.den, if fltIsNeg f then p.signs + 1 else p.signs⟩
  | t => powerPart K p t

/-- `get_formatting_info`, `multiplication.cc:300-366`, up to the last lines. -/
def formatParts (K : Ctors F) (ts : List (Expr F)) : Res (Parts F) :=
  foldRes (partStep K) ⟨[], [], 0⟩ (ts.insertionSort (fun a b => factorsLe a b = true))

/-- The numerator, `multiplication.cc:360-364`. -/
def Parts.numerator (p : Parts F) : List (Elem F) := if p.num.isEmpty then [.int 1] else p.num

/-- `format_element`, `plain_formatter.cc:245-259`. -/
def fmtElem (R : Expr F → Res (Toks F)) : Elem F → Res (Toks F)
  | .int n => .ok (intText n)
  | .flt f => .ok [.flt f]
  | .pow b e => if isInt 1 e then fmtPrec R 2 b else fmtPow R b e

/-- Elements separated by `*`. -/
def fmtElems (R : Expr F → Res (Toks F)) : List (Elem F) → Res (Toks F)
  | [] => .ok []
  | [a] => fmtElem R a
  | a :: as =>
    match fmtElem R a with
    | .error x => .error x
    | .ok l =>
      match fmtElems R as with
      | .error x => .error x
      | .ok r => .ok (l ++ .star :: r)

/-- The denominator, `plain_formatter.cc:267-282`. -/
def fmtDen (R : Expr F → Res (Toks F)) (den : List (Elem F)) : Res (Toks F) :=
  match fmtElems R den with
  | .error x => .error x
  | .ok ts => .ok (if den.isEmpty then [] else if 1 < den.length then .slash :: .lpar :: (ts ++ [.rpar]) else .slash :: ts)

/-- `plain_formatter::operator()(const multiplication&)`, `plain_formatter.cc:235-284`. -/
def fmtMul (K : Ctors F) (R : Expr F → Res (Toks F)) (ts : List (Expr F)) : Res (Toks F) :=
  if ts.length < 2 then .error .assertion
  else
    match formatParts K ts with
    | .error x => .error x
    | .ok p =>
      match fmtElems R p.numerator with
      | .error x => .error x
      | .ok l =>
        match fmtDen R p.den with
        | .error x => .error x
        | .ok r => .ok ((if p.signs % 2 = 1 then [.minus] else []) ++ (l ++ r))

/-! ## All nodes -/

/-- `plain_formatter::operator()(const power&)`, `plain_formatter.cc:301-310`. -/
def fmtPower (R : Expr F → Res (Toks F)) (b e : Expr F) : Res (Toks F) :=
  if isInt (-1) e then
    match fmtPrec R 2 b with
    | .error x => .error x
    | .ok ts => .ok (.int 1 :: .slash :: ts)
  else fmtPow R b e

/-- `plain_formatter::operator()(const relational&)`, `plain_formatter.cc:316-322`. -/
def fmtRel (R : Expr F → Res (Toks F)) (op : RelOp) (a b : Expr F) : Res (Toks F) :=
  match fmtPrec R 0 a with
  | .error x => .error x
  | .ok l =>
    match fmtPrec R 0 b with
    | .error x => .error x
    | .ok r => .ok (l ++ RelOp.tok op :: r)

/-- `(…)`, `plain_formatter.cc:349-351`. -/
def fmtParen (R : Expr F → Res (Toks F)) (a : Expr F) : Res (Toks F) :=
  match R a with
  | .error x => .error x
  | .ok ts => .ok (.lpar :: (ts ++ [.rpar]))

/-- A node; `R` formats its operands. Nodes that are not scalar or boolean have no plain text here. -/
def fmtNode (K : Ctors F) (R : Expr F → Res (Toks F)) (e : Expr F) : Res (Toks F) :=
  match e with
  | .int n => .ok (intText n)
  | .flt f => .ok (fltText f)
  | .rat r => .ok (intText r.n ++ .slash :: intText r.d)
  | .node (.const c) [] => .ok [.name (leafText (.const c : Head F))]
  | .node .zoo [] => .ok [.name (leafText (.zoo : Head F))]
  | .node .imag [] => .ok [.name (leafText (.imag : Head F))]
  | .node .undef [] => .ok [.name (leafText (.undef : Head F))]
  | .node (.bconst b) [] => .ok [.name (leafText (.bconst b : Head F))]
  | .node (.var n s) [] => .ok [.name (leafText (.var n s : Head F))]
  | .node (.argVar n i t) [] => .ok [.name (leafText (.argVar n i t : Head F))]
  | .node (.uniq i s) [] => .ok [.name (leafText (.uniq i s : Head F))]
  | .mul ts => fmtMul K R ts
  | .add ts => fmtAdd K R ts
  | .pow b e => fmtPower R b e
  | .fn f as => fmtCall R f.name as
  | .symfn n as => fmtCall R n as
  | .uneval a => fmtParen R a
  | .cond c a b => fmtCall R "where" [c, a, b]
  | .iverson c => fmtCall R "iverson" [c]
  | .stop a => fmtCall R "StopDerivative" [a]
  | .rel op a b => fmtRel R op a b
  | .node (.elem i) as => .ok [.opaq (.node (.elem i) as)]
  | .node (.deriv n) as => .ok [.opaq (.node (.deriv n) as)]
  | .node .subst as => .ok [.opaq (.node .subst as)]
  | _ => .error .invalidArgument

/-- `plain_formatter::convert`, `plain_formatter.cc:38,43-52`, and the visit of an expression, `plain_formatter.cc:18-36`. -/
def plainText (K : Ctors F) : Nat → Expr F → Res (Toks F)
  | 0, _ => .error .terminate
  | n + 1, e => fmtNode K (plainText K n) e

end Wf.Sym.Plain
