import Verif.Sym.RebuildModel

/-!
# Model of `substitute.cc`

The map of substitutions is an association list searched by identity. Where the code iterates over an `std::unordered_map`, the model iterates
in order of insertion.
-/

namespace Wf.Sym

variable {F : Type} [FnOps F] [DecidableEq F]

/-- Subtraction, `expression.cc:108-110`. -/
def subE (K : Ctors F) (a b : Expr F) : Res (Expr F) :=
  match K.mul [.int (-1), b] with
  | .error e => .error e
  | .ok m => K.add [a, m]

/-! ## Sums -/

/-- `addition_parts(const addition&)`, `addition.cc:148-156`. -/
def addPartsOf (K : Ctors F) (ts : List (Expr F)) : Res (AddParts F) :=
  match foldRes (addTerm K) ⟨.int 0, []⟩ (flatAdds ts) with
  | .error e => .error e
  | .ok p => .ok { p with terms := p.terms.filter (fun mc => !isInt 0 mc.2) }

/-- `create_addition` without `normalize_coefficients`, `addition.cc:163-194`. -/
def createSumRaw (K : Ctors F) (p : AddParts F) : Res (Expr F) :=
  match p.coeff.toExpr with
  | .error e => .error e
  | .ok c =>
    if isUndef c then .ok .undef
    else
      match mapRes (sumOperand K) p.terms with
      | .error e => .error e
      | .ok ts => .ok (newSum (if isInt 0 c then ts else c :: ts))

/-- Equality of constant coefficients (`operator!=` of the variant). -/
def Coeff.same : Coeff F → Coeff F → Bool
  | .int a, .int b => decide (a = b)
  | .rat a, .rat b => decide (a = b)
  | .flt a, .flt b => FloatCmp.eq a b
  | .undef, .undef => true
  | .zoo, .zoo => true
  | _, _ => false

/-- `std::holds_alternative<float_constant>`. -/
def Coeff.isFlt : Coeff F → Bool
  | .flt _ => true
  | _ => false

/-- The float check of the partial substitutions, `substitute.cc:105-115,160-168`: `none` if nothing is to be replaced, else the coefficient that
is left of the candidate (`unit` is 0 for a sum and 1 for a product). -/
def leftCoeff (unit : Int) (input target : Coeff F) : Option (Coeff F) :=
  if input.isFlt then (if input.same target then some (.int unit) else none) else some input

/-- Remove the terms of the target, `substitute.cc:118-125`: `none` if one is missing or has another coefficient. -/
def removeTerms : List (Expr F × Expr F) → List (Expr F × Expr F) → Option (List (Expr F × Expr F))
  | [], it => some it
  | (m, c) :: tt, it =>
    match findKey m it with
    | none => none
    | some c' => if identical c' c then removeTerms tt (eraseKey m it) else none

/-- Remove the constant of the target unless it is a float, `substitute.cc:128-130`. -/
def removeConst (K : Ctors F) (p : AddParts F) (c : Coeff F) : Res (AddParts F) :=
  if c.isFlt then .ok p
  else
    match c.toExpr with
    | .error e => .error e
    | .ok x =>
      match negE K x with
      | .error e => .error e
      | .ok y => foldRes (addTerm K) p (flatAdd y)

/-- Add in the replacement and build the sum, `substitute.cc:132-134`. -/
def finishAddPartial (K : Ctors F) (p : AddParts F) (tc : Coeff F) (replacement : Expr F) : Res (Expr F) :=
  match removeConst K p tc with
  | .error e => .error e
  | .ok p1 =>
    match foldRes (addTerm K) p1 (flatAdd replacement) with
    | .error e => .error e
    | .ok p2 => createSumRaw K p2

/-- `substitute_add_visitor::attempt_partial`, `substitute.cc:103-138`. (The parts of the target are made when the visitor is.) -/
def addPartial (K : Ctors F) (ts : List (Expr F)) (replacement : Expr F) (cs : List (Expr F)) : Res (Expr F) :=
  match addPartsOf K ts with
  | .error e => .error e
  | .ok tp =>
    match addPartsOf K cs with
    | .error e => .error e
    | .ok ip =>
      match leftCoeff 0 ip.coeff tp.coeff with
      | none => .ok (.add cs)
      | some c =>
        match removeTerms tp.terms ip.terms with
        | none => .ok (.add cs)
        | some rest => finishAddPartial K ⟨c, rest⟩ tp.coeff replacement

/-! ## Products -/

/-- `insert_integer_factors`, one factor, `multiplication.cc:165-174`. -/
def insertFactor (K : Ctors F) (positive : Bool) (p : MulParts F) (f : PrimeFactor) : Res (MulParts F) :=
  match findKey (.int f.base) p.terms with
  | none => .ok { p with terms := p.terms ++ [(.int f.base, .int (if positive then f.exponent else -f.exponent))] }
  | some e0 =>
    match K.add [e0, .int (if positive then f.exponent else -f.exponent)] with
    | .error e => .error e
    | .ok u => .ok { p with terms := setKey (.int f.base) u p.terms }

/-- `insert_integer_factors(compute_prime_factors(n), positive)`, `multiplication.cc:117,125-126`. -/
def insertFactors (K : Ctors F) (positive : Bool) (p : MulParts F) (n : Int) : Res (MulParts F) :=
  match computePrimeFactors n with
  | .error e => .error e
  | .ok fs => foldRes (insertFactor K positive) p fs

/-- `multiplication_parts::operator()` with `factorize_integers_ = true` on an operand that is not a product, `multiplication.cc:111-138`. -/
def mulTermF (K : Ctors F) (lic : Lic F) (p : MulParts F) (t : Expr F) : Res (MulParts F) :=
  match t with
  | .int n => insertFactors K true p n
  | .rat r =>
    match insertFactors K true p r.n with
    | .error e => .error e
    | .ok q => insertFactors K false q r.d
  | t => mulTerm K lic p t

/-- `visit(expr, parts)` with `factorize_integers_ = true`; visits nested at most `n` deep. -/
def visitF (K : Ctors F) (lic : Lic F) : Nat → MulParts F → Expr F → Res (MulParts F)
  | 0, _, _ => .error .terminate
  | n + 1, p, t => foldRes (mulTermF { K with visit := visitF K lic n } lic) p (flatMul t)

/-- `multiplication_parts(mul, true)`, `multiplication.cc:178-184`. -/
def mulPartsOf (K : Ctors F) (lic : Lic F) (m : Nat) (ts : List (Expr F)) : Res (MulParts F) :=
  match foldRes (visitF K lic m) ⟨.int 1, []⟩ ts with
  | .error e => .error e
  | .ok p => .ok { p with terms := p.terms.filter (fun be => !isInt 0 be.2) }

/-- The whole number of times the quotient goes in, `substitute.cc:181-206`: `none` if it is not a rational number. -/
def wholePart : Expr F → Res (Option Int)
  | .int n => .ok (some n)
  | .rat r =>
    match ratNormalized r with
    | .error e => .error e
    | .ok p => .ok (some p.1)
  | _ => .ok none

/-- Keep the smaller in magnitude, `substitute.cc:188-191,198-201`. -/
def smaller (best : Option Int) (k : Int) : Res Int :=
  match best with
  | none => .ok k
  | some b =>
    match cabs k with
    | .error e => .error e
    | .ok x =>
      match cabs b with
      | .error e => .error e
      | .ok y => .ok (if x < y then k else b)

/-- The loop that finds the exponent, `substitute.cc:172-207`: `none` if nothing is to be replaced. -/
def maxExponent (K : Ctors F) (it : List (Expr F × Expr F)) : Option Int → List (Expr F × Expr F) → Res (Option (Option Int))
  | best, [] => .ok (some best)
  | best, (b, x) :: tt =>
    match findKey b it with
    | none => .ok none
    | some e =>
      match divE K e x with
      | .error e => .error e
      | .ok q =>
        match wholePart q with
        | .error e => .error e
        | .ok none => .ok none
        | .ok (some k) =>
          match smaller best k with
          | .error e => .error e
          | .ok k' => maxExponent K it (some k') tt

/-- Deduct the replaced expression, one term, `substitute.cc:211-215`. -/
def deduct (K : Ctors F) (k : Int) (it : List (Expr F × Expr F)) (bx : Expr F × Expr F) : Res (List (Expr F × Expr F)) :=
  match findKey bx.1 it with
  | none => .error .assertion
  | some e =>
    match K.mul [bx.2, .int k] with
    | .error e => .error e
    | .ok xk =>
      match subE K e xk with
      | .error e => .error e
      | .ok e' => .ok (setKey bx.1 e' it)

/-- Insert the replacement, `substitute.cc:218-222`. -/
def insertReplacement (K : Ctors F) (k : Int) (replacement : Expr F) (it : List (Expr F × Expr F)) : Res (List (Expr F × Expr F)) :=
  match findKey replacement it with
  | none => .ok (it ++ [(replacement, .int k)])
  | some e =>
    match K.add [e, .int k] with
    | .error e => .error e
    | .ok e' => .ok (setKey replacement e' it)

/-- `substitute.cc:210-225`. -/
def finishMulPartial (K : Ctors F) (c : Coeff F) (it tt : List (Expr F × Expr F)) (k : Int) (replacement : Expr F) : Res (Expr F) :=
  match foldRes (deduct K k) it tt with
  | .error e => .error e
  | .ok it1 =>
    match insertReplacement K k replacement it1 with
    | .error e => .error e
    | .ok it2 => createProduct K ⟨c, it2⟩

/-- `substitute_mul_visitor::attempt_partial`, `substitute.cc:154-225`. -/
def mulPartial (K : Ctors F) (lic : Lic F) (m : Nat) (ts : List (Expr F)) (replacement : Expr F) (cs : List (Expr F)) : Res (Expr F) :=
  match mulPartsOf K lic m ts with
  | .error e => .error e
  | .ok tp =>
    match mulPartsOf K lic m cs with
    | .error e => .error e
    | .ok ip =>
      match leftCoeff 1 ip.coeff tp.coeff with
      | none => .ok (.mul cs)
      | some c =>
        match maxExponent K ip.terms none tp.terms with
        | .error e => .error e
        | .ok none => .ok (.mul cs)
        | .ok (some none) => .error .assertion
        | .ok (some (some k)) => finishMulPartial K c ip.terms tp.terms k replacement

/-! ## Powers -/

/-- `power::create(a, x) * power::create(b, y)` -/
def mulPow (K : Ctors F) (a x b y : Expr F) : Res (Expr F) :=
  match K.pow a x with
  | .error e => .error e
  | .ok p =>
    match K.pow b y with
    | .error e => .error e
    | .ok q => K.mul [p, q]

/-- `substitute.cc:256-285`: the coefficient in the exponent divides. -/
def powPartialSum (K : Ctors F) (cand base replacement tc tm : Expr F) (p : AddParts F) (c0 : Expr F) : Res (Expr F) :=
  match divE K c0 tc with
  | .error e => .error e
  | .ok (.int n) =>
    match createSumRaw K { p with terms := eraseKey tm p.terms } with
    | .error e => .error e
    | .ok y => mulPow K replacement (.int n) base y
  | .ok (.rat r) =>
    match ratNormalized r with
    | .error e => .error e
    | .ok q =>
      if q.1 = 0 then .ok cand
      else
        match K.mul [tc, .int q.1] with
        | .error e => .error e
        | .ok s =>
          match subE K c0 s with
          | .error e => .error e
          | .ok c1 =>
            match createSumRaw K { p with terms := setKey tm c1 p.terms } with
            | .error e => .error e
            | .ok y => mulPow K replacement (.int q.1) base y
  | .ok _ => .ok cand

/-- `substitute.cc:286-304`: the exponent is a multiple of the exponent of the target. -/
def powPartialMul (K : Ctors F) (cand base replacement te ce : Expr F) : Res (Expr F) :=
  match divE K ce te with
  | .error e => .error e
  | .ok (.int n) => K.pow replacement (.int n)
  | .ok (.rat r) =>
    match ratNormalized r with
    | .error e => .error e
    | .ok q =>
      if q.1 = 0 then .ok cand
      else
        match ratExpr q.2 with
        | .error e => .error e
        | .ok f =>
          match K.mul [te, f] with
          | .error e => .error e
          | .ok y => mulPow K replacement (.int q.1) base y
  | .ok _ => .ok cand

/-- `substitute_pow_visitor::attempt_partial`, `substitute.cc:241-307`. -/
def powPartial (K : Ctors F) (tb te replacement cb ce : Expr F) : Res (Expr F) :=
  if identical tb cb then
    match ce with
    | .add es =>
      match addPartsOf K es with
      | .error e => .error e
      | .ok p =>
        match findKey (asCoeffMul te).2 p.terms with
        | none => .ok (.pow cb ce)
        | some c0 => powPartialSum K (.pow cb ce) cb replacement (asCoeffMul te).1 (asCoeffMul te).2 p c0
    | ce => powPartialMul K (.pow cb ce) cb replacement te ce
  else .ok (.pow cb ce)

/-! ## One substitution -/

/-- `attempt_partial`; a target that is not a sum, product or power is not matched partially, `substitute.cc:84-92,312-328`. -/
def attemptPartial (K : Ctors F) (lic : Lic F) (m : Nat) (target replacement e : Expr F) : Res (Expr F) :=
  match target, e with
  | .add ts, .add cs => addPartial K ts replacement cs
  | .mul ts, .mul cs => mulPartial K lic m ts replacement cs
  | .pow tb te, .pow cb ce => powPartial K tb te replacement cb ce
  | _, e => .ok e

/-- Visit the children of a node that has any. -/
def descend (K : Ctors F) (m : Nat) (R : Expr F → Res (Expr F)) (e : Expr F) : Res (Expr F) :=
  if e.head.isLeaf then .ok e else mapChildren K m R e

/-- `substitute_visitor_base::operator()`, `substitute.cc:39-76`. -/
def substBody (K : Ctors F) (lic : Lic F) (m : Nat) (target replacement : Expr F) (R : Expr F → Res (Expr F)) (e : Expr F) : Res (Expr F) :=
  if identical target e then .ok replacement
  else
    match attemptPartial K lic m target replacement e with
    | .error e => .error e
    | .ok p => descend K m R p

/-- The target types that are rejected, `substitute.cc:450-455`. -/
def isLiteral (e : Expr F) : Bool :=
  match e.head with
  | .int _ | .flt _ | .rat _ | .bconst _ => true
  | _ => false

/-- `substitute_single_impl`, `substitute.cc:445-460`; `n` is the depth of nested visits. -/
def substSingle (K : Ctors F) (lic : Lic F) (m n : Nat) (e : Expr F) (pair : Expr F × Expr F) : Res (Expr F) :=
  if isLiteral pair.1 then .error .type else visitor (substBody K lic m pair.1 pair.2) n e

/-! ## Several substitutions -/

/-- `substitute_variables_visitor::operator()`, `substitute.cc:346-376`. -/
def substVarsBody (K : Ctors F) (m : Nat) (σ : List (Expr F × Expr F)) (R : Expr F → Res (Expr F)) (e : Expr F) : Res (Expr F) :=
  match findKey e σ with
  | some r => .ok r
  | none => descend K m R e

/-- Substitute variables all at once. -/
def substVars (K : Ctors F) (m n : Nat) (σ : List (Expr F × Expr F)) (e : Expr F) : Res (Expr F) := visitor (substVarsBody K m σ) n e

/-- `is_type<variable, compound_expression_element>()` -/
def isVarOrElem (e : Expr F) : Bool :=
  match e.head with
  | .var _ _ | .elem _ => true
  | _ => false

/-- `is_valid_for_unordered_subs`, `substitute.cc:392-424`. -/
def validUnordered (force : Bool) (σ : List (Expr F × Expr F)) (pair : Expr F × Expr F) : Bool :=
  !isBoolean pair.1 && isVarOrElem pair.1 && (findKey pair.1 σ).isNone && (pair.2.head.isLeaf || force) && (findKey pair.2 σ).isNone

/-- `create_unordered_subs_visitor`, `substitute.cc:426-443`: the pairs accepted so far are `σ`. -/
def unorderedPairs (force : Bool) : List (Expr F × Expr F) → List (Expr F × Expr F) → Option (List (Expr F × Expr F))
  | σ, [] => some σ
  | σ, p :: ps => if validUnordered force σ p then unorderedPairs force (σ ++ [p]) ps else none

/-- The pairs one after another, `substitute.cc:479-491`. -/
def substSeq (K : Ctors F) (lic : Lic F) (m n : Nat) (e : Expr F) (pairs : List (Expr F × Expr F)) : Res (Expr F) :=
  foldRes (substSingle K lic m n) e pairs

/-- `substitute_any`, `substitute.cc:462-492`. -/
def substAny (K : Ctors F) (lic : Lic F) (m n : Nat) (force : Bool) (e : Expr F) (pairs : List (Expr F × Expr F)) : Res (Expr F) :=
  if 1 < pairs.length then
    match unorderedPairs force [] pairs with
    | some σ => substVars K m n σ e
    | none => substSeq K lic m n e pairs
  else substSeq K lic m n e pairs

end Wf.Sym
