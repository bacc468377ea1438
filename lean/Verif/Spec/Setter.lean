import Verif.Spec.Ops

/-!
# Specification of the generated setters `set_<field>` and `set_<variant>_<field>`
-/

namespace Steit.Spec

/-! ## Default values -/

mutual
/-- The default value of a type: zeros, empty collections, structs and the first variant of enums with default fields. -/
def initial : (t : Ty) → t.El
  | .uint _ => 0
  | .sint _ => 0
  | .bool => false
  | .string => ⟨[], rfl⟩
  | .bytes => []
  | .vec _ => []
  | .array n t => ⟨List.replicate n (initial t), List.length_replicate⟩
  | .tuple ts => initialTuple ts
  | .option _ => none
  | .box t => initial t
  | .hashMap _ _ => []
  | .list _ => ⟨Rt.dflt, []⟩
  | .map _ _ => ⟨Rt.dflt, []⟩
  | .struct _ _ fs => ⟨Rt.dflt, initialFields fs⟩
  | .enum _ _ fs _ => ⟨Rt.dflt, .inl (initialFields fs)⟩

/-- Component-wise. -/
def initialTuple : (ts : Tys) → ts.El
  | .nil => ()
  | .cons t ts => (initial t, initialTuple ts)

/-- Field-wise. -/
def initialFields : (fs : Fields) → fs.El
  | .nil => ()
  | .cons _ _ t fs => (initial t, initialFields fs)
end

/-! ## Structs -/

/-- The fields after a setter call: the field named gets the value given. -/
def setField : (fs : Fields) → fs.Op → fs.El → fs.El
  | .nil, _, v => v
  | .cons _ _ _ _, .inl (.set x), v => (x, v.2)
  | .cons _ _ _ _, .inl _, v => v
  | .cons _ _ _ fs, .inr op, v => (v.1, setField fs op v.2)

/-- A call of the setter of a field that takes part in the state. The value can be sent, and sits somewhere (the setter moves
it to the right place). -/
def SetsField : (fs : Fields) → fs.Op → Prop
  | .nil, _ => False
  | .cons _ attrs t _, .inl (.set x) => attrs.noState = false ∧ Sendable t x ∧ ∃ rt, At t rt x
  | .cons _ _ _ _, .inl _ => False
  | .cons _ _ _ fs, .inr op => SetsField fs op

/-- What it logs, relative to the message. -/
def setterEntry : (fs : Fields) → fs.Op → Entry
  | .nil, _ => .update [] []
  | .cons tag _ t _, .inl (.set x) => .update [tag] (encode t x)
  | .cons tag _ _ _, .inl _ => .update [tag] []
  | .cons _ _ _ fs, .inr op => setterEntry fs op

/-- A call of the setter of a field marked `no_state`. -/
def SetsNoState : (fs : Fields) → fs.Op → Prop
  | .nil, _ => False
  | .cons _ attrs _ _, .inl (.set _) => attrs.noState = true
  | .cons _ _ _ _, .inl _ => False
  | .cons _ _ _ fs, .inr op => SetsNoState fs op

/-- The tags of fields marked `no_state`. -/
def noStateTags : Fields → List U32
  | .nil => []
  | .cons tag attrs _ fs => if attrs.noState then tag :: noStateTags fs else noStateTags fs

/-! ## Enums -/

/-- The variant a setter belongs to, with default fields. -/
def initialVariant : (vs : Variants) → vs.Op → vs.El
  | .nil, op => nomatch op
  | .cons _ _ fs _, .inl _ => .inl (initialFields fs)
  | .cons _ _ _ vs, .inr op => .inr (initialVariant vs op)

/-- Is the variant a setter belongs to the current one? -/
def isCurrent : (vs : Variants) → vs.Op → vs.El → Bool
  | .nil, op, _ => nomatch op
  | .cons _ _ _ _, .inl _, .inl _ => true
  | .cons _ _ _ vs, .inr op, .inr v => isCurrent vs op v
  | .cons _ _ _ _, _, _ => false

/-- The value after a setter call: in the setter's variant, the field named has the value given; the other fields are
unchanged if the variant was the current one, and have their default values otherwise. -/
def setVariant : (vs : Variants) → vs.Op → vs.El → vs.El
  | .nil, op, _ => nomatch op
  | .cons _ _ fs _, .inl op, .inl v => .inl (setField fs op v)
  | .cons _ _ fs _, .inl op, .inr _ => .inl (setField fs op (initialFields fs))
  | .cons _ _ _ vs, .inr op, .inl _ => .inr (setVariant vs op (initialVariant vs op))
  | .cons _ _ _ vs, .inr op, .inr v => .inr (setVariant vs op v)

/-- A setter call. -/
def SetsVariant : (vs : Variants) → vs.Op → Prop
  | .nil, _ => False
  | .cons _ _ fs _, .inl op => SetsField fs op
  | .cons _ _ _ vs, .inr op => SetsVariant vs op

/-- What it logs for the field, relative to the enum. -/
def variantEntry : (vs : Variants) → vs.Op → Entry
  | .nil, op => nomatch op
  | .cons tag _ fs _, .inl op => under [tag] (setterEntry fs op)
  | .cons _ _ _ vs, .inr op => variantEntry vs op

/-- Everything a setter of an enum logs, relative to the enum: an update of the field; and if the variant is not the current
one, before that an update of the whole enum to the variant with default fields. -/
def setterEntries (vs : Variants) (op : vs.Op) (v : vs.El) : List Entry :=
  if isCurrent vs op v then [variantEntry vs op]
  else [.update [] (encodeVariant vs (initialVariant vs op)), variantEntry vs op]

end Steit.Spec
