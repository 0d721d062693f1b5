import Verif.Sym.SubstituteModel

/-! # Model of `distribute.cc` and `collect.cc` -/

namespace Wf.Sym

variable {F : Type} [FnOps F] [DecidableEq F]

/-- `is_type<addition>()` -/
def isSum (e : Expr F) : Bool :=
  match e.head with
  | .add => true
  | _ => false

/-! ## Distribute -/

/-- `expression_as_span`, `distribute.cc:94-100`. -/
def termsOf (e : Expr F) : List (Expr F) :=
  match e with
  | .add ts => ts
  | e => [e]

/-- The product of two terms; distributed again if it contains a sum, `distribute.cc:110-120`. -/
def distTerm (K : Ctors F) (R : Expr F → Res (Expr F)) (xy : Expr F × Expr F) : Res (Expr F) :=
  match K.mul [xy.1, xy.2] with
  | .error e => .error e
  | .ok (.mul ts) => if ts.any isSum then R (.mul ts) else .ok (.mul ts)
  | .ok p => .ok p

/-- `distribute_multiplied_terms(a, b)`, `distribute.cc:103-124`. -/
def distTwo (K : Ctors F) (R : Expr F → Res (Expr F)) (a b : Expr F) : Res (Expr F) :=
  match mapRes (distTerm K R) ((termsOf a).flatMap fun x => (termsOf b).map fun y => (x, y)) with
  | .error e => .error e
  | .ok ts => K.add ts

/-- The loop of `distribute_multiplied_terms(multiplication)`, `distribute.cc:127-136`: the last two are multiplied until one is left. -/
def distMany (K : Ctors F) (R : Expr F → Res (Expr F)) : List (Expr F) → Res (Expr F)
  | [] => .error .assertion
  | [a] => .ok a
  | a :: b :: as =>
    match distMany K R (b :: as) with
    | .error e => .error e
    | .ok t => distTwo K R a t

/-- Multiply into the result if the bit is set, `distribute.cc:80-82`. -/
def distBit (K : Ctors F) (R : Expr F → Res (Expr F)) (odd : Bool) (result base : Expr F) : Res (Expr F) :=
  if odd then distTwo K R result base else .ok result

/-- The loop of `distribute_power`, `distribute.cc:76-90`; the first argument bounds the number of rounds. -/
def distLoop (K : Ctors F) (R : Expr F → Res (Expr F)) : Nat → Nat → Expr F → Expr F → Res (Expr F)
  | 0, _, _, _ => .error .terminate
  | fuel + 1, k, result, base =>
    match distBit K R (k % 2 == 1) result base with
    | .error e => .error e
    | .ok result' =>
      if k / 2 = 0 then .ok result'
      else
        match distTwo K R base base with
        | .error e => .error e
        | .ok base' => distLoop K R fuel (k / 2) result' base'

/-- `distribute_power`, `distribute.cc:76-91`. (`k` is halved in each round, so `k` rounds are enough.) -/
def distPower (K : Ctors F) (R : Expr F → Res (Expr F)) (base : Expr F) (k : Nat) : Res (Expr F) :=
  if k = 0 then .error .assertion else distLoop K R k k (.int 1) base

/-- The result, or its reciprocal, `distribute.cc:40-44,55-59`. -/
def distSign (K : Ctors F) (n : Int) (d : Expr F) : Res (Expr F) := if 0 < n then .ok d else K.pow d (.int (-1))

/-- Expand the power of a sum, `distribute.cc:35-62`. `none` if the power is not expanded. -/
def distPowSum (K : Ctors F) (R : Expr F → Res (Expr F)) (b e : Expr F) : Res (Option (Expr F)) :=
  match e with
  | .int n =>
    match cabs n with
    | .error e => .error e
    | .ok k =>
      match distPower K R b k.toNat with
      | .error e => .error e
      | .ok d => (distSign K n d).map some
  | .rat q =>
    if q.d = 2 then
      match cabs q.n with
      | .error e => .error e
      | .ok k =>
        if 1 < k then
          match K.pow b (.rat ⟨1, 2⟩) with
          | .error e => .error e
          | .ok s =>
            match distPower K R s k.toNat with
            | .error e => .error e
            | .ok d => (distSign K q.n d).map some
        else .ok none
    else .ok none
  | _ => .ok none

/-- The end of `distribute_visitor::operator()(const power&)`, `distribute.cc:34-64`. -/
def distPow (K : Ctors F) (R : Expr F → Res (Expr F)) (b e : Expr F) : Res (Expr F) :=
  if isSum b then
    match distPowSum K R b e with
    | .error e => .error e
    | .ok (some r) => .ok r
    | .ok none => K.pow b e
  else K.pow b e

/-- `distribute_visitor::operator()`, `distribute.cc:26-74`. -/
def distBody (K : Ctors F) (m : Nat) (R : Expr F → Res (Expr F)) (e : Expr F) : Res (Expr F) :=
  match e with
  | .mul ts =>
    match mapRes R ts with
    | .error e => .error e
    | .ok us => distMany K R us
  | .pow b x =>
    match R b with
    | .error e => .error e
    | .ok b' =>
      match R x with
      | .error e => .error e
      | .ok x' => distPow K R b' x'
  | e => descend K m R e

/-- `distribute`, `distribute.cc:138`; `n` is the depth of nested visits. -/
def distribute (K : Ctors F) (m n : Nat) (e : Expr F) : Res (Expr F) := visitor (distBody K m) n e

/-! ## Collect -/

/-- `as_base_and_exp`, `power.cc:498-504`. -/
def baseAndExp (e : Expr F) : Expr F × Expr F :=
  match e with
  | .pow b x => (b, x)
  | e => (e, .int 1)

/-- Find the first factor that is a power of `t`: its exponent and the other factors, `collect.cc:37-61`. -/
def splitFactor (t : Expr F) : List (Expr F) → Option (Expr F × List (Expr F))
  | [] => none
  | a :: as =>
    if identical (baseAndExp a).1 t then some ((baseAndExp a).2, as)
    else
      match splitFactor t as with
      | none => none
      | some (x, rest) => some (x, a :: rest)

/-- What a term of the sum is collected as: the exponent of `t` and the coefficient; `none` if it is not a multiple of a power of `t`,
`collect.cc:33-75`. -/
def collectTerm (K : Ctors F) (t child : Expr F) : Res (Option (Expr F × Expr F)) :=
  match child with
  | .mul fs =>
    match splitFactor t fs with
    | none => .ok none
    | some (x, rest) =>
      match K.mul rest with
      | .error e => .error e
      | .ok c => .ok (some (x, c))
  | child => if identical (baseAndExp child).1 t then .ok (some ((baseAndExp child).2, .int 1)) else .ok none

/-- The map from exponents to coefficients. The code uses an `std::unordered_map`; the model keeps the order of insertion. -/
abbrev Powers (F : Type) := List (Expr F × List (Expr F))

/-- `exponents_to_mul[x].push_back(c)` -/
def pushCoeff (x c : Expr F) : Powers F → Powers F
  | [] => [(x, [c])]
  | (y, cs) :: rest => if identical y x then (y, cs ++ [c]) :: rest else (y, cs) :: pushCoeff x c rest

/-- Split the terms into those that are collected and the remaining ones, `collect.cc:31-77`. -/
def collectSplit (K : Ctors F) (t : Expr F) : Powers F → List (Expr F) → Res (Powers F × List (Expr F))
  | ps, [] => .ok (ps, [])
  | ps, c :: cs =>
    match collectTerm K t c with
    | .error e => .error e
    | .ok none =>
      match collectSplit K t ps cs with
      | .error e => .error e
      | .ok (ps', rest) => .ok (ps', c :: rest)
    | .ok (some (x, k)) => collectSplit K t (pushCoeff x k ps) cs

/-- One power of the collected term with its coefficient, `collect.cc:91-106`; `f` makes the coefficient of the terms. -/
def collectPower1 (K : Ctors F) (f : List (Expr F) → Res (Expr F)) (t : Expr F) (p : Expr F × List (Expr F)) : Res (Expr F) :=
  match K.pow t p.1 with
  | .error e => .error e
  | .ok q =>
    match f p.2 with
    | .error e => .error e
    | .ok c => K.mul [q, c]

/-- The remaining terms, collected by the other terms, `collect.cc:81-86`. -/
def collectRest (f : List (Expr F) → Res (Expr F)) (more : Bool) (rest : List (Expr F)) : Res (List (Expr F)) :=
  if more && !rest.isEmpty then
    match f rest with
    | .error e => .error e
    | .ok r => .ok [r]
  else .ok rest

/-- `collect_addition_terms`, `collect.cc:20-109`. -/
def collectTerms (K : Ctors F) : List (Expr F) → List (Expr F) → Res (Expr F)
  | [], cs => K.add cs
  | t :: ts, cs =>
    match collectSplit K t [] cs with
    | .error e => .error e
    | .ok (ps, rest) =>
      match collectRest (collectTerms K ts) (!ts.isEmpty) rest with
      | .error e => .error e
      | .ok rest' =>
        match mapRes (collectPower1 K (collectTerms K ts) t) ps with
        | .error e => .error e
        | .ok qs => K.add (rest' ++ qs)

/-- `collect_visitor::operator()`, `collect.cc:108-124`. -/
def collectBody (K : Ctors F) (m : Nat) (ts : List (Expr F)) (R : Expr F → Res (Expr F)) (e : Expr F) : Res (Expr F) :=
  match e with
  | .add cs =>
    match mapRes R cs with
    | .error e => .error e
    | .ok cs' => collectTerms K ts cs'
  | e => descend K m R e

/-- `collect_many`, `collect.cc:130-140`. -/
def collectMany (K : Ctors F) (m n : Nat) (e : Expr F) (ts : List (Expr F)) : Res (Expr F) :=
  if ts.isEmpty then .ok e
  else if ts.any isNumeric then .error .type
  else visitor (collectBody K m ts) n e

end Wf.Sym
