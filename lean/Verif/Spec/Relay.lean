import Verif.Spec.Encoding

/-!
# Passing on what was received

`objects` lists the values inside a value. `KeysIn` says of the path of a log entry that the map keys on it are keys of the
maps' key types.
-/

namespace Steit.Spec

mutual
/-- The map keys on a path into a value of the type are keys of the maps' key types, below 2^29. -/
def KeysIn : Ty → List U32 → Prop
  | .map kt t, k :: path => k.toNat ≤ kt.max ∧ k.toNat < 2 ^ 29 ∧ KeysIn t path
  | .list t, _ :: path => KeysIn t path
  | .box t, path => KeysIn t path
  | .struct _ _ fs, path => FieldKeysIn fs path
  | .enum _ _ fs vs, tag :: path => (tag = 0#32 → FieldKeysIn fs path) ∧ VariantKeysIn vs tag path
  | .enum _ _ _ _, [] => True
  | .map _ _, [] => True
  | .list _, [] => True
  | .uint _, _ => True
  | .sint _, _ => True
  | .bool, _ => True
  | .string, _ => True
  | .bytes, _ => True
  | .vec _, _ => True
  | .array _ _, _ => True
  | .tuple _, _ => True
  | .option _, _ => True
  | .hashMap _ _, _ => True

/-- The path starts with the tag of a field. -/
def FieldKeysIn : Fields → List U32 → Prop
  | .nil, _ => True
  | .cons _ _ _ _, [] => True
  | .cons tag _ t fs, tag' :: path => (tag' = tag → KeysIn t path) ∧ FieldKeysIn fs (tag' :: path)

/-- The path into the fields of the variant with the given tag. -/
def VariantKeysIn : Variants → U32 → List U32 → Prop
  | .nil, _, _ => True
  | .cons tag' _ fs vs, tag, path => (tag = tag' → FieldKeysIn fs path) ∧ VariantKeysIn vs tag path
end

mutual
/-- The value itself and all values inside it, at any depth. -/
def objects : (t : Ty) → t.El → List (Σ s : Ty, s.El)
  | .uint w, v => [⟨.uint w, v⟩]
  | .sint w, v => [⟨.sint w, v⟩]
  | .bool, v => [⟨.bool, v⟩]
  | .string, v => [⟨.string, v⟩]
  | .bytes, v => [⟨.bytes, v⟩]
  | .vec t, v => ⟨.vec t, v⟩ :: v.flatMap (objects t)
  | .array n t, v => ⟨.array n t, v⟩ :: v.1.flatMap (objects t)
  | .tuple ts, v => ⟨.tuple ts, v⟩ :: objectsTuple ts v
  | .option t, v => ⟨.option t, v⟩ :: v.toList.flatMap (objects t)
  | .box t, v => ⟨.box t, v⟩ :: objects t v
  | .hashMap k w, v => ⟨.hashMap k w, v⟩ :: v.flatMap (fun e => objects k e.1 ++ objects w e.2)
  | .list t, v => ⟨.list t, v⟩ :: v.items.flatMap (objects t)
  | .map kt t, v => ⟨.map kt t, v⟩ :: v.entries.flatMap (fun e => objects t e.2)
  | .struct ds c fs, v => ⟨.struct ds c fs, v⟩ :: objectsFields fs v.fields
  | .enum ds c fs vs, v =>
    ⟨.enum ds c fs vs, v⟩ ::
      match v.val with
      | .inl x => objectsFields fs x
      | .inr x => objectsVariant vs x

/-- In the components. -/
def objectsTuple : (ts : Tys) → ts.El → List (Σ s : Ty, s.El)
  | .nil, _ => []
  | .cons t ts, v => objects t v.1 ++ objectsTuple ts v.2

/-- In the fields. -/
def objectsFields : (fs : Fields) → fs.El → List (Σ s : Ty, s.El)
  | .nil, _ => []
  | .cons _ _ t fs, v => objects t v.1 ++ objectsFields fs v.2

/-- In the current variant. -/
def objectsVariant : (vs : Variants) → vs.El → List (Σ s : Ty, s.El)
  | .nil, _ => []
  | .cons _ _ fs vs, v =>
    match v with
    | .inl x => objectsFields fs x
    | .inr x => objectsVariant vs x
end

end Steit.Spec
