import Verif.Spec.Encoding
import Verif.Spec.Wire

/-!
# Specification: messages as sequences of fields

Nothing is said about who wrote the bytes: keys and lengths may be any varints of the right value, not only shortest ones.
-/

namespace Steit.Spec

/-- One value on the wire: a varint, or a length (at most ten bytes, below 2^64) and that many bytes. -/
def Chunk (wire : WireType) (c : Bytes) : Prop :=
  match wire with
  | .varint => IsVarint c
  | .sized => ∃ len payload, c = len ++ payload ∧ IsVarint len ∧ len.length ≤ 10 ∧ lebValue len = payload.length ∧
      payload.length < 2 ^ 64

/-- A field on the wire. -/
structure WField where
  num : U32
  wire : WireType
  key : Bytes
  body : Bytes
  deriving DecidableEq

/-- Its bytes. -/
def WField.bytes (w : WField) : Bytes := w.key ++ w.body

/-- A well-formed field: the number is at most 2^29 - 1, the key is a varint of at most five bytes denoting number and wire
type, the body fits the wire type. -/
def WField.OK (w : WField) : Prop :=
  w.num.toNat < 2 ^ 29 ∧ IsVarint w.key ∧ w.key.length ≤ 5 ∧ lebValue w.key = w.num.toNat * 8 + w.wire.num ∧
    Chunk w.wire w.body

/-- A field some build of the library can skip without knowing it: a varint of at most two bytes or a payload below 2^63
bytes in debug builds, any varint or a payload below 2^63 bytes in release builds. -/
def WField.Skippable (m : Mode) (w : WField) : Prop :=
  match w.wire with
  | .varint => m = .release ∨ w.body.length ≤ 2
  | .sized => w.body.length < 2 ^ 63

/-- The bytes of a sequence of fields. -/
def wireBytes (ws : List WField) : Bytes := ws.flatMap WField.bytes

/-- Wire type of a type. -/
def wireTypeOf (t : Ty) : WireType := if wireOf t = 0 then .varint else .sized

/-- The fields of a message as they are written: in order of declaration, those left out missing, keys and lengths as short
as possible. -/
def fieldsOf : (fs : Fields) → fs.El → List WField
  | .nil, _ => []
  | .cons tag _ t fs, v =>
    (if leftOut t v.1 (encode t v.1) then []
      else [⟨tag, wireTypeOf t, leb (tag.toNat * 8 + wireOf t), framed (wireOf t) (encode t v.1)⟩]) ++ fieldsOf fs v.2

/-- The input is made of whole items, entries or fields of the type (types whose `merge` is a loop over these). -/
def Boundary : Ty → Bytes → Prop
  | .vec t, bs => ∃ cs : List Bytes, bs = cs.flatten ∧ ∀ c ∈ cs, Chunk (wireTypeOf t) c
  | .option t, bs => ∃ cs : List Bytes, bs = cs.flatten ∧ ∀ c ∈ cs, Chunk (wireTypeOf t) c
  | .list t, bs => ∃ cs : List Bytes, bs = cs.flatten ∧ ∀ c ∈ cs, Chunk (wireTypeOf t) c
  | .hashMap k v, bs => ∃ cs : List (Bytes × Bytes), bs = cs.flatMap (fun c => c.1 ++ c.2) ∧
      ∀ c ∈ cs, Chunk (wireTypeOf k) c.1 ∧ Chunk (wireTypeOf v) c.2
  | .map _ t, bs => ∃ ws : List WField, bs = wireBytes ws ∧ ∀ w ∈ ws, w.OK ∧ w.wire = wireTypeOf t
  | .struct _ _ _, bs => ∃ ws : List WField, bs = wireBytes ws ∧ ∀ w ∈ ws, w.OK
  | .bytes, _ => True
  | .box t, bs => Boundary t bs
  | _, _ => False

end Steit.Spec
