import Verif.Gen.TypesModel
import Verif.Mat.PyMatModel

/-!
# Model of `custom_types.py`: between instances of user-defined types and lists of expressions

The type is the internal one, `Ty`; a custom type without fields stands for a subclass of `Opaque`, which is not a dataclass (dataclasses
without fields are refused, `custom_types.py:98-102`). A dataclass instance is the record of its attributes: constructors that do more than
assigning the attributes are not modelled. Exceptions of Python (`TypeError`, `AttributeError`, `RuntimeError`) are the error `type`.
-/

namespace Wf.Gen

open Mat (Mat PyObj matrixFromIterable)

mutual
/-- A Python object in a field: an expression, a matrix expression, an instance of a dataclass, or anything else (`None` included). -/
inductive PyVal (E : Type)
  | expr (x : E)
  | matrix (m : Mat E)
  | inst (attrs : Attrs E)
  | other
/-- The attributes of an instance. -/
inductive Attrs (E : Type)
  | nil
  | cons (name : String) (value : PyVal E) (rest : Attrs E)
end

variable {E : Type}

/-- `getattr`. -/
def Attrs.get (s : String) : Attrs E → Res (PyVal E)
  | .nil => .error .type
  | .cons n v r => if n = s then .ok v else r.get s

mutual
/-- `map_expressions_into_custom_type`, `custom_types.py:134-169`; for a field of another type the branch of the loop (155-166): the value
and the remaining expressions. -/
def Ty.fromFlat : Ty → List E → Res (PyVal E × List E)
  | .scalar _, es => match es with
    | [] => .error .type
    | x :: rest => .ok (.expr x, rest)
  | .matrix r c, es => do
    let col ← matrixFromIterable ((es.take (r * c)).map PyObj.expr)
    let m ← col.reshape r c
    return (.matrix m, es.drop (m.rows * m.cols).toNat)
  | .custom _ fs, es => match fs with
    | .nil => .error .assertion
    | .cons n t r => do
      let a ← (Fields.cons n t r).fromFlat es
      return (.inst a.1, a.2)
/-- The loop over the fields, `custom_types.py:150-166`. -/
def Fields.fromFlat : Fields → List E → Res (Attrs E × List E)
  | .nil, es => .ok (.nil, es)
  | .cons n t r, es => if es.isEmpty then .error .type else do
    let v ← t.fromFlat es
    let a ← r.fromFlat v.2
    return (.cons n v.1 a.1, a.2)
end

mutual
/-- `map_expressions_out_of_custom_type`, `custom_types.py:172-213`; for a field of another type the branch of the loop (196-211). -/
def Ty.toFlat : Ty → PyVal E → Res (List E)
  | .scalar _, v => match v with
    | .expr x => .ok [x]
    | _ => .error .type
  | .matrix _ _, v => match v with
    | .matrix m => .ok m.data
    | _ => .error .type
  | .custom _ fs, v => match v with
    | .inst a => fs.toFlat a
    | _ => .error .type
/-- The loop over the fields, `custom_types.py:189-211`. -/
def Fields.toFlat : Fields → Attrs E → Res (List E)
  | .nil, _ => .ok []
  | .cons n t r, a => do
    let v ← a.get n
    let xs ← t.toFlat v
    let ys ← r.toFlat a
    return xs ++ ys
end

end Wf.Gen
