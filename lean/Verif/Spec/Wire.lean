import Verif.Model.WireFmt

/-! # Wire types as numbers -/

namespace Steit

/-- The wire type as a number: 0 for bare varints, 2 for length-prefixed data. -/
def WireType.num : WireType → Nat
  | .varint => 0
  | .sized => 2

end Steit
