import Verif.Spec.Address
import Verif.Spec.Log

/-! # Specification of replay -/

namespace Steit.Spec

/-- What kind of state a type is, looking through boxes. -/
inductive Shape
  /-- integers and bools: no runtime of their own. -/
  | prim
  /-- lists, maps, structs: the runtime is the object's own. -/
  | plain
  /-- enums: the runtime is the current variant's. -/
  | enum
  deriving DecidableEq

/-- See `Shape`. -/
def shape : Ty → Shape
  | .uint _ => .prim
  | .sint _ => .prim
  | .bool => .prim
  | .box t => shape t
  | .enum _ _ _ _ => .enum
  | _ => .plain

/-- Is the type a box? -/
def isBox : Ty → Bool
  | .box _ => true
  | _ => false

end Steit.Spec
